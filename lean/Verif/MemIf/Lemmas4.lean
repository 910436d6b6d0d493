import Verif.MemIf.Lemmas3

/-!
# Simulation of reads and pokes
-/

namespace Sparta.MemIf

open Sparta.MemoryMap (wordSize Mapping)

/-! ### Reads -/

/-- the notes of a read -/
def rNotes (t : Spec) (i a : Nat) (d : Bytes) : List Note :=
  ((t.trail i a).reverse.filter (fun p => t.obsR p.1)).map (fun p => Note.read p.1 p.2 d)

theorem rNotes_cons {t : Spec} {i a j b : Nat} {d : Bytes} (h : t.trail i a = (i, a) :: t.trail j b) :
    rNotes t i a d = rNotes t j b d ++ (if t.obsR i then [Note.read i a d] else []) := by
  unfold rNotes
  rw [h, List.reverse_cons, List.filter_append, List.map_append]
  congr 1
  cases ho : t.obsR i <;> simp [ho]

theorem tryRead_ok {t : Spec} (hc : Cfg t.nodes t.objs) {i n a k} (hn : t.nodes i = some n)
    (h0 : 0 < k) (hb : inBlock n.bs a k) (hl : (t.loc i a).isSome = true) :
    t.tryRead i a k = ({ t with reads := bump t.reads ((t.trail i a).map (·.1)), notes := t.notes ++ rNotes t i a (t.load i a k) },
      some (t.load i a k)) := by
  have hcr : t.crosses i a k = false := by
    rw [Bool.eq_false_iff]; intro h; exact (crosses_eq hc hn h0).1 h hb
  have hm : t.mapped i a k = true := by rw [mapped_block hc hn hb h0, hl]
  unfold Spec.tryRead
  dsimp only
  rw [if_pos ⟨hcr, hm⟩]
  simp only [Spec.counted, hcr]
  rfl

theorem tryRead_fail {t : Spec} (hc : Cfg t.nodes t.objs) {i n a k} (hn : t.nodes i = some n)
    (h0 : 0 < k) (hb : inBlock n.bs a k) (hl : t.loc i a = none) :
    t.tryRead i a k = ({ t with reads := bump t.reads ((t.trail i a).map (·.1)) }, none) := by
  have hcr : t.crosses i a k = false := by
    rw [Bool.eq_false_iff]; intro h; exact (crosses_eq hc hn h0).1 h hb
  have hm : t.mapped i a k = false := by rw [mapped_block hc hn hb h0, hl]; rfl
  unfold Spec.tryRead
  dsimp only
  rw [if_neg (by rw [hm]; simp)]
  simp only [Spec.counted, hcr]
  rfl

theorem tryRead_cross {t : Spec} (hc : Cfg t.nodes t.objs) {i n a k} (hn : t.nodes i = some n)
    (h0 : 0 < k) (hb : ¬ inBlock n.bs a k) :
    t.tryRead i a k = ({ t with reads := bump t.reads [i] }, none) := by
  have hcr : t.crosses i a k = true := (crosses_eq hc hn h0).2 hb
  unfold Spec.tryRead
  dsimp only
  rw [if_neg (by rw [hcr]; simp)]
  simp only [Spec.counted, hcr, if_true]

theorem tryRead_sim : ∀ (d i : Nat) (s : Sys) (t : Spec) (a k : Nat), SRep s t → i < d → i < t.nNode →
    sized a k → ∃ s', tryRead d s i a k = some (s', (t.tryRead i a k).2) ∧ SRep s' (t.tryRead i a k).1 := by
  intro d
  induction d with
  | zero => intro i s t a k _ h; omega
  | succ d ih =>
    intro i s t a k r hd hi hs
    obtain ⟨sn, hn⟩ := Option.ne_none_iff_exists'.1 ((r.nodeLt i).2 hi)
    have ok := r.cfg i sn hn
    have hp := bs_pos ok.pow
    obtain ⟨n, hs1, hr⟩ := r.node hn
    have h0 := hs.1
    have r1 : SRep { s with reads := upd s.reads i (s.reads i + 1) } { t with reads := bump t.reads [i] } := by
      have := srep_reads r (bump t.reads [i])
      rw [bump_one, ← r.reads] at this
      rw [bump_one, ← r.reads]; exact this
    unfold tryRead
    rw [hs1]
    dsimp only
    rw [spans_crosses r hn hr hs]
    by_cases hb : inBlock sn.bs a k
    · have hcr : t.crosses i a k = false := by
        rw [Bool.eq_false_iff]; intro h; exact (crosses_eq r.cfg hn h0).1 h hb
      rw [if_neg (by rw [hcr]; simp), inWindow_eq hr.lo hs, hr.hi]
      by_cases ha : a < sn.total
      · have hle := inBlock_le hp ok.al ha hb
        rw [if_neg (by simp; omega)]
        have hob : s.obsR i = t.obsR i := by rw [r.obsR]
        cases hk : n.kind with
        | obj o =>
          have hk' := hr.obj o hk
          have hl := (walk_obj r.cfg hn hk' ha).1
          have htr := (walk_obj r.cfg hn hk' ha).2
          rw [tryRead_ok r.cfg hn h0 hb (by rw [hl]; rfl)]
          obtain ⟨m, g1, g2⟩ := obj_peek r1 hn hk' ha hb
          have hw : read_ { s with reads := upd s.reads i (s.reads i + 1) } (tryRead d) n a k =
              some ({ s with reads := upd s.reads i (s.reads i + 1) }, some (t.load i a k)) := by
            unfold read_
            rw [hk]
            dsimp only
            have g1' : s.objs o = some m := g1
            rw [g1']
            dsimp only
            rw [g2]; rfl
          rw [hw, htr]
          have e1 : ((([(i, a)] : List (Nat × Nat)).map (·.1))) = [i] := rfl
          rw [e1]
          have hwn : rNotes t i a (t.load i a k) =
              (if t.obsR i then [Note.read i a (t.load i a k)] else []) := by
            unfold rNotes; rw [htr]
            cases ho : t.obsR i <;> simp [ho]
          rw [hwn, hob]
          cases ho : t.obsR i with
          | false =>
            refine ⟨_, rfl, ?_⟩
            simp only [Bool.false_eq_true, if_false, List.append_nil]
            exact r1
          | true =>
            have := srep_notes r1 (t.notes ++ [Note.read i a (t.load i a k)])
            rw [← r.notes] at this
            refine ⟨_, rfl, ?_⟩
            simp only [if_true]
            rw [← r.notes]
            exact this
        | map mp =>
          obtain ⟨hk', _, _, tr, I⟩ := hr.map mp hk
          cases hf : mp.mappings.find? (hit a) with
          | none =>
            obtain ⟨hl, htr⟩ := walk_hole r.cfg hn hk' hf
            have hw : read_ { s with reads := upd s.reads i (s.reads i + 1) } (tryRead d) n a k =
                some ({ s with reads := upd s.reads i (s.reads i + 1) }, none) := by
              unfold read_
              rw [hk]
              dsimp only
              rw [findMapping_eq I, hf]
            rw [tryRead_fail r.cfg hn h0 hb hl, htr, hw]
            refine ⟨_, ?_, r1⟩
            cases s.obsR i <;> rfl
          | some m =>
            obtain ⟨g1, g2, tn, g3, g4, g5, g6⟩ := map_next r.cfg hn hk' hf hb h0
            obtain ⟨wl, wt⟩ := walk_map r.cfg hn hk' ha hf
            obtain ⟨s', q1, q2⟩ := ih m.memif _ _ (m.destOff + (a - m.start)) k r1 (by omega)
              ((r.nodeLt _).1 (by rw [g3]; simp)) g6
            have hw : read_ { s with reads := upd s.reads i (s.reads i + 1) } (tryRead d) n a k =
                tryRead d { s with reads := upd s.reads i (s.reads i + 1) } m.memif (m.destOff + (a - m.start)) k := by
              unfold read_
              rw [hk]
              dsimp only
              rw [findMapping_eq I, hf]
              dsimp only
              rw [g2]
            have hni : i ∉ (t.trail m.memif (m.destOff + (a - m.start))).map (·.1) := by
              intro h
              obtain ⟨p, hp1, hp2⟩ := List.mem_map.1 h
              have := trail_le r.cfg _ _ p hp1
              omega
            rw [hw, q1]
            cases hl : t.loc i a with
            | none =>
              rw [tryRead_fail r.cfg hn h0 hb hl, wt, List.map_cons, ← bump_cons _ _ _ hni]
              have q2' := q2
              rw [tryRead_fail (t := { t with reads := bump t.reads [i] }) r.cfg g3 h0 g5 (wl.symm.trans hl)] at q2' ⊢
              refine ⟨s', ?_, q2'⟩
              cases s.obsR i <;> rfl
            | some p =>
              have hl1 : (t.loc i a).isSome = true := by rw [hl]; rfl
              rw [tryRead_ok r.cfg hn h0 hb hl1, wt, List.map_cons]
              have q2' := q2
              rw [tryRead_ok (t := { t with reads := bump t.reads [i] }) r.cfg g3 h0 g5 ((congrArg Option.isSome wl).symm.trans hl1)] at q2' ⊢
              have hld : Spec.load { t with reads := bump t.reads [i] } m.memif (m.destOff + (a - m.start)) k =
                  t.load i a k := (load_map r.cfg hn hk' ha hf hb).symm
              rw [hld] at q2' ⊢
              rw [rNotes_cons wt, ← bump_cons _ _ _ hni, hob]
              cases ho : t.obsR i with
              | false =>
                refine ⟨s', rfl, ?_⟩
                simp only [Bool.false_eq_true, if_false, List.append_nil]
                exact q2'
              | true =>
                have q3 := srep_notes q2' (t.notes ++ (rNotes t m.memif (m.destOff + (a - m.start)) (t.load i a k) ++
                  [Note.read i a (t.load i a k)]))
                have e : s'.notes = t.notes ++ rNotes t m.memif (m.destOff + (a - m.start)) (t.load i a k) :=
                  q2'.notes
                refine ⟨{ s' with notes := s'.notes ++ [Note.read i a (t.load i a k)] }, rfl, ?_⟩
                simp only [if_true]
                rw [e, List.append_assoc]
                exact q3
      · rw [if_pos (by simp; omega)]
        obtain ⟨hl, htr⟩ := walk_out r.cfg hn (Nat.not_lt.1 ha)
        rw [tryRead_fail r.cfg hn h0 hb hl, htr]
        exact ⟨_, rfl, r1⟩
    · rw [if_pos ((crosses_eq r.cfg hn h0).2 hb), tryRead_cross r.cfg hn h0 hb]
      exact ⟨_, rfl, r1⟩

/-! ### Pokes -/

/-- the specification after a poke in a block -/
def blockPoke (t : Spec) (i a : Nat) (bs : Bytes) : Spec := if (t.loc i a).isSome then t.store i a bs else t

theorem blockPoke_nodes (t : Spec) (i a : Nat) (bs : Bytes) : (blockPoke t i a bs).nodes = t.nodes := by
  unfold blockPoke; split
  · exact store_nodes _ _ _ _
  · rfl

theorem blockPoke_nNode (t : Spec) (i a : Nat) (bs : Bytes) : (blockPoke t i a bs).nNode = t.nNode := by
  have h : ∀ (bs : Bytes) (t : Spec) (a : Nat), (t.store i a bs).nNode = t.nNode := by
    intro bs
    induction bs with
    | nil => intro t a; rfl
    | cons b bs ih =>
      intro t a
      rw [Spec.store, ih]
      unfold Spec.setByte; split <;> rfl
  unfold blockPoke; split
  · exact h _ _ _
  · rfl

/-- a poke in a block does what it should -/
def PokeOk (f : Sys → Nat → Bytes → Option (Sys × Bool)) (i : Nat) (sn : SNode) : Prop :=
  ∀ s t a bs, SRep s t → t.nodes i = some sn → 0 < bs.length → a < sn.total → inBlock sn.bs a bs.length →
    ∃ s', f s a bs = some (s', (t.loc i a).isSome) ∧ SRep s' (blockPoke t i a bs)

theorem poke_block {d : Nat} (ih : ∀ i sn s t a bs, i < d → SRep s t → t.nodes i = some sn → sized a bs.length →
      inBlock sn.bs a bs.length → ∃ s', tryPoke d s i a bs = some (s', (t.loc i a).isSome) ∧ SRep s' (blockPoke t i a bs))
    {i n sn} (hi : i ≤ d) (hr : NRep n sn) : PokeOk (fun s a bs => write_ s (tryPoke d) n a bs) i sn := by
  intro s t a bs r hn h0 ha hb
  have ok := r.cfg i sn hn
  unfold write_
  cases hk : n.kind with
  | obj o =>
    have hk' := hr.obj o hk
    obtain ⟨m, h1, h2, h3⟩ := obj_write r hn hk' ha hb
    have hl := (walk_obj r.cfg hn hk' ha).1
    dsimp only
    rw [h1, hl]
    dsimp only
    rw [show m.write a bs = ((m.write a bs).1, true) from Prod.ext rfl h2]
    refine ⟨_, rfl, ?_⟩
    rw [blockPoke, hl, if_pos (Option.isSome_some), store_block bs r.cfg hn hb hl]
    exact h3
  | map mp =>
    obtain ⟨hk', _, _, tr, I⟩ := hr.map mp hk
    dsimp only
    rw [findMapping_eq I]
    cases hf : mp.mappings.find? (hit a) with
    | none =>
      dsimp only
      have hl := (walk_hole r.cfg hn hk' hf).1
      rw [hl]
      refine ⟨s, rfl, ?_⟩
      rw [blockPoke, hl, if_neg (by simp)]; exact r
    | some m =>
      dsimp only
      obtain ⟨g1, g2, tn, g3, g4, g5, g6⟩ := map_next r.cfg hn hk' hf hb h0
      obtain ⟨s', q1, q2⟩ := ih _ tn s t _ bs (by omega) r g3 g6 g5
      have wl := (walk_map r.cfg hn hk' ha hf).1
      rw [g2, wl]
      refine ⟨s', q1, ?_⟩
      have : blockPoke t i a bs = blockPoke t m.memif (m.destOff + (a - m.start)) bs := by
        unfold blockPoke
        rw [wl]
        cases hl : t.loc m.memif (m.destOff + (a - m.start)) with
        | none => rfl
        | some p =>
          obtain ⟨o, x⟩ := p
          rw [if_pos (Option.isSome_some), if_pos (Option.isSome_some), store_block bs r.cfg hn hb (wl.trans hl), store_block bs r.cfg g3 g5 hl]
      rw [this]; exact q2

theorem tryPoke_block : ∀ (d i : Nat) (sn : SNode) (s : Sys) (t : Spec) (a : Nat) (bs : Bytes), i < d → SRep s t →
    t.nodes i = some sn → sized a bs.length → inBlock sn.bs a bs.length →
    ∃ s', tryPoke d s i a bs = some (s', (t.loc i a).isSome) ∧ SRep s' (blockPoke t i a bs) := by
  intro d
  induction d with
  | zero => intro i sn s t a bs hi; omega
  | succ d ih =>
    intro i sn s t a bs hi r hn hs hb
    have ok := r.cfg i sn hn
    have h0 := bs_pos ok.pow
    obtain ⟨n, h1, hr⟩ := r.node hn
    unfold tryPoke
    rw [h1]
    dsimp only
    rw [inWindow_eq hr.lo hs, hr.hi]
    by_cases ha : a < sn.total
    · have hle := inBlock_le h0 ok.al ha hb
      rw [if_pos (decide_eq_true hle)]
      unfold pokeLoop
      dsimp only
      rw [blockEnd_eq hr ok ha, w64_of_lt hs.2, if_pos (stop_in_block h0 hb), w64_sub (by omega) hs.2,
        show a + bs.length - a = bs.length by omega, List.take_length]
      exact poke_block ih (by omega) hr s t a bs r hn hs.1 ha hb
    · have hk := hs.1
      have hl := (walk_out r.cfg hn (Nat.not_lt.1 ha)).1
      rw [if_neg (by simp; omega), blockPoke, hl, if_neg (by simp)]
      exact ⟨s, rfl, r⟩

theorem reach_le {t : Spec} {i a k : Nat} : t.reach i a k ≤ k := by
  unfold Spec.reach
  have h := List.Sublist.length_le (List.takeWhile_sublist (l := List.range k) (fun j => (t.loc i (a + j)).isSome))
  rw [List.length_range] at h
  exact h

theorem takeWhile_append_all {α : Type} (p : α → Bool) (l r : List α) :
    (l ++ r).takeWhile p = if l.all p then l ++ r.takeWhile p else l.takeWhile p := by
  induction l with
  | nil => rfl
  | cons x l ih =>
    rw [List.cons_append, List.takeWhile_cons, List.all_cons, List.takeWhile_cons]
    cases hx : p x with
    | false => simp
    | true =>
      rw [ih]
      cases l.all p <;> simp

theorem takeWhile_all_eq {α : Type} (p : α → Bool) (l : List α) (h : l.all p = true) : l.takeWhile p = l := by
  have := takeWhile_append_all p l []
  rw [List.append_nil, if_pos h, List.takeWhile_nil, List.append_nil] at this
  exact this

theorem reach_all {t : Spec} {i a k : Nat} (h : t.mapped i a k = true) : t.reach i a k = k := by
  unfold Spec.reach
  rw [takeWhile_all_eq _ _ h, List.length_range]

theorem reach_append {t : Spec} {i a k l : Nat} :
    t.reach i a (k + l) = if t.mapped i a k then k + t.reach i (a + k) l else t.reach i a k := by
  unfold Spec.reach
  rw [List.range_add, takeWhile_append_all]
  show List.length (if t.mapped i a k = true then _ else _) = _
  split
  · rw [List.length_append, List.length_range, List.takeWhile_map, List.length_map]
    congr 3
    funext j
    simp only [Function.comp]
    rw [Nat.add_assoc]
  · rfl

theorem reach_zero {t : Spec} {i a k : Nat} (h : t.loc i a = none) : t.reach i a k = 0 := by
  unfold Spec.reach
  cases k with
  | zero => rfl
  | succ k =>
    rw [List.range_succ_eq_map, List.takeWhile_cons, Nat.add_zero, h]; rfl

theorem reach_congr {t t' : Spec} (h : t'.nodes = t.nodes) (i a k : Nat) : t'.reach i a k = t.reach i a k := by
  unfold Spec.reach
  simp only [loc_congr h]

theorem pokeLoop_sim {i n sn} (hr : NRep n sn) (f : Sys → Nat → Bytes → Option (Sys × Bool)) (hf : PokeOk f i sn) :
    ∀ (fuel : Nat) (s : Sys) (t : Spec) (a stop : Nat) (bs : Bytes), SRep s t → t.nodes i = some sn → a < stop →
      stop ≤ sn.total → bs.length = stop - a → stop - a < fuel →
      ∃ s', pokeLoop n f fuel s a stop bs = some (s', t.reach i a bs.length == bs.length) ∧
        SRep s' (t.store i a (bs.take (t.reach i a bs.length))) := by
  intro fuel
  induction fuel with
  | zero => intro s t a stop bs _ _ _ _ _ h; omega
  | succ fuel ih =>
    intro s t a stop bs r hn h1 h2 hlen h3
    have ok := r.cfg i sn hn
    have h0 := bs_pos ok.pow
    have hlt := ok.lt
    have ha : a < sn.total := by omega
    unfold pokeLoop
    dsimp only
    rw [blockEnd_eq hr ok ha]
    have e := Nat.div_add_mod a sn.bs
    rw [Nat.mul_comm] at e
    have hm := Nat.mod_lt a h0
    have he : (a / sn.bs + 1) * sn.bs = a / sn.bs * sn.bs + sn.bs := by rw [Nat.add_mul]; omega
    by_cases hs : (a / sn.bs + 1) * sn.bs ≥ stop
    · rw [if_pos hs, w64_sub (by omega) (by omega), ← hlen, List.take_length]
      have hb : inBlock sn.bs a bs.length := by unfold inBlock; omega
      obtain ⟨s', q1, q2⟩ := hf s t a bs r hn (by omega) ha hb
      rw [q1]
      cases hl : t.loc i a with
      | none =>
        rw [reach_zero hl]
        refine ⟨s', ?_, ?_⟩
        · have hne : ¬ (0 = bs.length) := by omega
          simp [hne]
        · rw [blockPoke, hl, if_neg (by simp)] at q2
          exact q2
      | some p =>
        have hmp : t.mapped i a bs.length = true := by rw [mapped_block r.cfg hn hb (by omega), hl]; rfl
        rw [reach_all hmp]
        refine ⟨s', by simp, ?_⟩
        rw [blockPoke, hl, if_pos (Option.isSome_some)] at q2
        rw [List.take_length]; exact q2
    · rw [if_neg hs, w64_sub (by omega) (by omega)]
      obtain ⟨k, hk⟩ : ∃ k, k = (a / sn.bs + 1) * sn.bs - a := ⟨_, rfl⟩
      have hend : (a / sn.bs + 1) * sn.bs = a + k := by omega
      rw [← hk, hend]
      have hb : inBlock sn.bs a k := by unfold inBlock; omega
      have hkl : k < bs.length := by omega
      have htl : (bs.take k).length = k := by rw [List.length_take]; omega
      obtain ⟨s', q1, q2⟩ := hf s t a (bs.take k) r hn (by omega) ha (by rw [htl]; exact hb)
      rw [q1]
      have hsplit : bs.length = k + (bs.drop k).length := by rw [List.length_drop]; omega
      have hmb := mapped_block r.cfg hn hb (by omega)
      cases hl : t.loc i a with
      | none =>
        rw [reach_zero hl]
        refine ⟨s', ?_, ?_⟩
        · have hne : ¬ (0 = bs.length) := by omega
          simp [hne]
        · rw [blockPoke, hl, if_neg (by simp)] at q2
          exact q2
      | some p =>
        rw [hl] at hmb
        rw [blockPoke, hl, if_pos (Option.isSome_some)] at q2
        have hnd := store_nodes i (bs.take k) t a
        obtain ⟨s'', p1, p2⟩ := ih s' (t.store i a (bs.take k)) (a + k) stop (bs.drop k) q2 (by rw [hnd]; exact hn)
          (by omega) h2 (by rw [List.length_drop]; omega) (by omega)
        rw [reach_congr hnd] at p1 p2
        have hre : t.reach i a bs.length = k + t.reach i (a + k) (bs.drop k).length := by
          rw [hsplit, reach_append, if_pos (show t.mapped i a k = true from hmb)]
        refine ⟨s'', ?_, ?_⟩
        · show pokeLoop n f fuel s' (a + k) stop (bs.drop k) = _
          rw [p1, hre]
          have : (t.reach i (a + k) (List.drop k bs).length == (List.drop k bs).length) =
              (k + t.reach i (a + k) (List.drop k bs).length == bs.length) := by
            rw [Bool.eq_iff_iff, beq_iff_eq, beq_iff_eq]; omega
          rw [this]
        · rw [hre, List.take_add, store_append, htl]
          exact p2

theorem tryPoke_sim {s t} (r : SRep s t) {d i a : Nat} {bs : Bytes} (hd : i < d) (hi : i < t.nNode) (hs : sized a bs.length) :
    ∃ s', tryPoke d s i a bs = some (s', (t.tryPoke i a bs).2) ∧ SRep s' (t.tryPoke i a bs).1 := by
  obtain ⟨sn, hn⟩ := Option.ne_none_iff_exists'.1 ((r.nodeLt i).2 hi)
  have ok := r.cfg i sn hn
  obtain ⟨n, h1, hr⟩ := r.node hn
  cases d with
  | zero => omega
  | succ d =>
    unfold tryPoke Spec.tryPoke Spec.within
    rw [h1, hn]
    dsimp only
    rw [inWindow_eq hr.lo hs, hr.hi]
    have hk := hs.1
    by_cases ha : a + bs.length ≤ sn.total
    · rw [if_pos (decide_eq_true ha), if_pos (decide_eq_true ha), w64_of_lt hs.2]
      exact pokeLoop_sim hr _ (poke_block (fun i sn s t a bs => tryPoke_block d i sn s t a bs) (by omega) hr)
          (bs.length + 1) s t a (a + bs.length) bs r hn (by omega) ha (by omega) (by omega)
    · rw [if_neg (by simpa using ha), if_neg (by simpa using ha)]
      exact ⟨s, rfl, r⟩

end Sparta.MemIf
