import Verif.MemIf.Lemmas6

/-!
# Memory interfaces: what a store changes; interfaces and direct interfaces stay
-/

namespace Sparta.MemIf

open Sparta.MemoryMap (wordSize Mapping)

theorem step_peek {s t} (r : SRep s t) {i a k : Nat} (hi : i < t.nNode) (hs : sized a k) :
    (step s (.tryPeek i a k)).2 = match t.tryPeek i a k with | none => .no | some d => .data d :=
  (rep_step s t (.tryPeek i a k) r ⟨hi, hs⟩).2

theorem peek_one {s t} (r : SRep s t) {i a : Nat} (hi : i < t.nNode) (hs : sized a 1) :
    (step s (.tryPeek i a 1)).2 = if (t.loc i a).isSome then .data [t.byte i a] else .no := by
  rw [step_peek r hi hs, Spec.tryPeek, Spec.mapped, Spec.load]
  simp only [List.range_one, List.all_cons, List.all_nil, Bool.and_true, List.map_cons, List.map_nil, Nat.add_zero]
  cases (t.loc i a).isSome <;> rfl

/-! ### Stores -/

theorem setByte_byte {t : Spec} (hc : Cfg t.nodes t.objs) {i a j b : Nat} {v : UInt8} {n : SNode} (hn : t.nodes i = some n) :
    (t.setByte i a v).byte j b = if t.loc j b = t.loc i a ∧ (t.loc j b).isSome then v else t.byte j b := by
  unfold Spec.byte
  rw [loc_congr (setByte_nodes t i a v)]
  unfold Spec.setByte
  cases hl : t.loc i a with
  | none =>
    dsimp only
    cases t.loc j b <;> simp
  | some p =>
    obtain ⟨o, x⟩ := p
    dsimp only
    cases hj : t.loc j b with
    | none => simp
    | some q =>
      obtain ⟨o', y⟩ := q
      dsimp only
      obtain ⟨_, ⟨m, hm, _⟩, _⟩ := loc_block hc i n a o x hn hl
      unfold upd
      by_cases ho : o' = o
      · subst ho
        rw [if_pos rfl, hm]
        simp only [Option.map_some]
        by_cases hy : y = x
        · subst hy; simp
        · simp [hy]
      · rw [if_neg ho]
        simp [ho]

theorem setByte_cfg {t : Spec} (hc : Cfg t.nodes t.objs) (i a : Nat) (v : UInt8) :
    Cfg (t.setByte i a v).nodes (t.setByte i a v).objs := by
  intro j nj hj
  rw [setByte_nodes] at hj ⊢
  have ok := hc j nj hj
  refine ⟨ok.pow, ok.al, ok.lt, ?_, ok.map⟩
  intro o hk
  obtain ⟨m, g1, g2, g3⟩ := ok.obj o hk
  unfold Spec.setByte
  cases hl : t.loc i a with
  | none => exact ⟨m, g1, g2, g3⟩
  | some p =>
    obtain ⟨o', x⟩ := p
    dsimp only
    unfold upd
    by_cases ho : o = o'
    · subst ho
      rw [if_pos rfl, g1]; exact ⟨_, rfl, g2, g3⟩
    · rw [if_neg ho]; exact ⟨m, g1, g2, g3⟩

theorem store_byte_other {i n} (bs : Bytes) : ∀ {t : Spec} (_ : Cfg t.nodes t.objs) {a j b : Nat}, t.nodes i = some n →
    (∀ p, p < bs.length → ¬ (t.loc j b = t.loc i (a + p) ∧ (t.loc j b).isSome)) → (t.store i a bs).byte j b = t.byte j b := by
  induction bs with
  | nil => intro t _ a j b _ _; rfl
  | cons v bs ih =>
    intro t hc a j b hn h
    rw [Spec.store, ih (setByte_cfg hc i a v) (by rw [setByte_nodes]; exact hn), setByte_byte hc hn, if_neg]
    · have := h 0 (by simp)
      rw [Nat.add_zero] at this
      exact this
    · intro p hp
      rw [loc_congr (setByte_nodes t i a v), loc_congr (setByte_nodes t i a v)]
      have := h (p + 1) (by simpa using hp)
      rw [show a + (p + 1) = a + 1 + p by omega] at this
      exact this

theorem store_byte_at {i n} (bs : Bytes) : ∀ {t : Spec} (_ : Cfg t.nodes t.objs) {a j b p : Nat} {v : UInt8}, t.nodes i = some n →
    bs[p]? = some v → t.loc j b = t.loc i (a + p) → (t.loc j b).isSome = true →
    (∀ p', p < p' → p' < bs.length → t.loc i (a + p') ≠ t.loc i (a + p)) → (t.store i a bs).byte j b = v := by
  induction bs with
  | nil => intro t _ a j b p v _ h; simp at h
  | cons w bs ih =>
    intro t hc a j b p v hn hv hl hs hlast
    rw [Spec.store]
    cases p with
    | zero =>
      cases hv
      rw [Nat.add_zero] at hl hlast
      rw [store_byte_other bs (setByte_cfg hc i a w) (by rw [setByte_nodes]; exact hn), setByte_byte hc hn, if_pos ⟨hl, hs⟩]
      intro p hp
      rw [loc_congr (setByte_nodes t i a w), loc_congr (setByte_nodes t i a w)]
      have := hlast (p + 1) (by omega) (by simpa using hp)
      rw [show a + (p + 1) = a + 1 + p by omega] at this
      rintro ⟨e, _⟩
      exact this (e.symm.trans hl)
    | succ p =>
      refine ih (setByte_cfg hc i a w) (p := p) (by rw [setByte_nodes]; exact hn) (by simpa using hv) ?_ ?_ ?_
      · rw [loc_congr (setByte_nodes t i a w), loc_congr (setByte_nodes t i a w), hl]
        rw [show a + (p + 1) = a + 1 + p by omega]
      · rw [loc_congr (setByte_nodes t i a w)]; exact hs
      · intro p' h1 h2
        rw [loc_congr (setByte_nodes t i a w), loc_congr (setByte_nodes t i a w)]
        have := hlast (p' + 1) (by omega) (by simpa using h2)
        rw [show a + (p' + 1) = a + 1 + p' by omega, show a + (p + 1) = a + 1 + p by omega] at this
        exact this

theorem store_nNode (i : Nat) (bs : Bytes) : ∀ (t : Spec) (a : Nat), (t.store i a bs).nNode = t.nNode := by
  induction bs with
  | nil => intro t a; rfl
  | cons b bs ih =>
    intro t a
    rw [Spec.store, ih]
    unfold Spec.setByte; split <;> rfl

/-- what is seen after `op`, when it assigned `bs` to the addresses from `a` of interface `i` -/
theorem seen_store {s t} (r : SRep s t) {op : Op} (hl : t.legal op) {i a n} {bs : Bytes} (hn : t.nodes i = some n)
    (hd : (t.step op).1.nodes = (t.store i a bs).nodes) (ho : (t.step op).1.objs = (t.store i a bs).objs)
    (hN : (t.step op).1.nNode = t.nNode) {j b : Nat} (hj : j < t.nNode) (hs : sized b 1) :
    ((∀ p, p < bs.length → ¬ (t.loc j b = t.loc i (a + p) ∧ (t.loc j b).isSome)) →
      (step (step s op).1 (.tryPeek j b 1)).2 = (step s (.tryPeek j b 1)).2) ∧
    (∀ (p : Nat) (v : UInt8), bs[p]? = some v → t.loc j b = t.loc i (a + p) → (t.loc j b).isSome = true →
      (∀ p', p < p' → p' < bs.length → t.loc i (a + p') ≠ t.loc i (a + p)) →
      (step (step s op).1 (.tryPeek j b 1)).2 = .data [v]) := by
  have r' := (rep_step s t op r hl).1
  have e1 := peek_one r' (i := j) (a := b) (by rw [hN]; exact hj) hs
  have e2 := peek_one r hj hs
  have hlc : (t.step op).1.loc j b = t.loc j b := loc_congr (hd.trans (store_nodes _ _ _ _)) j b
  have hby : (t.step op).1.byte j b = (t.store i a bs).byte j b := by
    unfold Spec.byte
    rw [hlc, loc_congr (store_nodes i bs t a) j b, ho]
  rw [hlc, hby] at e1
  constructor
  · intro h
    rw [e1, e2, store_byte_other bs r.cfg hn h]
  · intro p v hv hlp hsm hlast
    rw [e1, if_pos hsm, store_byte_at bs r.cfg hn hv hlp hsm hlast]

theorem store_dmis (i : Nat) (bs : Bytes) : ∀ (t : Spec) (a : Nat), (t.store i a bs).dmis = t.dmis := by
  induction bs with
  | nil => intro t a; rfl
  | cons b bs ih =>
    intro t a
    rw [Spec.store, ih]
    unfold Spec.setByte; split <;> rfl


/-! ### Interfaces stay -/

/-- a later state of an interface: a map may have more mappings -/
def Later (n n' : SNode) : Prop :=
  n'.bs = n.bs ∧ n'.total = n.total ∧ (∀ o, n.kind = .obj o → n'.kind = .obj o) ∧
    ∀ ms, n.kind = .map ms → ∃ l, n'.kind = .map (ms ++ l)

theorem Later.refl (n : SNode) : Later n n :=
  ⟨rfl, rfl, fun _ h => h, fun ms h => ⟨[], by rw [List.append_nil]; exact h⟩⟩

theorem Later.trans {n n' n'' : SNode} (h : Later n n') (g : Later n' n'') : Later n n'' := by
  refine ⟨g.1.trans h.1, g.2.1.trans h.2.1, fun o e => g.2.2.1 o (h.2.2.1 o e), fun ms e => ?_⟩
  obtain ⟨l, e1⟩ := h.2.2.2 ms e
  obtain ⟨l', e2⟩ := g.2.2.2 _ e1
  exact ⟨l ++ l', by rw [e2, List.append_assoc]⟩

theorem tryRead_nodes (t : Spec) (j a k : Nat) :
    (t.tryRead j a k).1.nodes = t.nodes ∧ (t.tryRead j a k).1.nNode = t.nNode := by
  unfold Spec.tryRead; dsimp only; split <;> exact ⟨rfl, rfl⟩

theorem tryWrite_nodes (t : Spec) (j a : Nat) (bs : Bytes) :
    (t.tryWrite j a bs).1.nodes = t.nodes ∧ (t.tryWrite j a bs).1.nNode = t.nNode := by
  unfold Spec.tryWrite; dsimp only; split
  · exact ⟨store_nodes _ _ _ _, store_nNode _ _ _ _⟩
  · exact ⟨rfl, rfl⟩

theorem tryPoke_nodes (t : Spec) (j a : Nat) (bs : Bytes) :
    (t.tryPoke j a bs).1.nodes = t.nodes ∧ (t.tryPoke j a bs).1.nNode = t.nNode := by
  unfold Spec.tryPoke; split
  · exact ⟨store_nodes _ _ _ _, store_nNode _ _ _ _⟩
  · exact ⟨rfl, rfl⟩

theorem getDMI_nodes (t : Spec) (j a k : Nat) :
    (t.getDMI j a k).1.nodes = t.nodes ∧ (t.getDMI j a k).1.nNode = t.nNode := by
  unfold Spec.getDMI
  split
  · exact ⟨rfl, rfl⟩
  · split
    · dsimp only; split <;> exact ⟨rfl, rfl⟩
    · exact ⟨rfl, rfl⟩

def isBuild : Op → Bool
  | .newObj .. | .newObjNode .. | .newMapNode .. | .addMapping .. => true
  | _ => false

theorem step_nodes {t : Spec} {op : Op} (h : isBuild op = false) :
    (t.step op).1.nodes = t.nodes ∧ (t.step op).1.nNode = t.nNode := by
  cases op with
  | newObj _ _ _ _ => cases h
  | newObjNode _ => cases h
  | newMapNode _ _ => cases h
  | addMapping _ _ _ _ _ => cases h
  | observe _ _ _ => exact ⟨rfl, rfl⟩
  | tryRead j a k => exact tryRead_nodes t j a k
  | read j a k => exact tryRead_nodes t j a k
  | tryWrite j a bs => exact tryWrite_nodes t j a bs
  | write j a bs => exact tryWrite_nodes t j a bs
  | tryPeek _ _ _ => exact ⟨rfl, rfl⟩
  | peek _ _ _ => exact ⟨rfl, rfl⟩
  | tryPoke j a bs => exact tryPoke_nodes t j a bs
  | poke j a bs => exact tryPoke_nodes t j a bs
  | getDMI j a k => exact getDMI_nodes t j a k
  | dmiRead d a k => unfold Spec.step; dsimp only; split <;> exact ⟨rfl, rfl⟩
  | dmiWrite d a bs =>
    unfold Spec.step; dsimp only; split
    · exact ⟨rfl, rfl⟩
    · split <;> exact ⟨rfl, rfl⟩
  | invalidate _ => exact ⟨rfl, rfl⟩

theorem step_keeps {t : Spec} (op : Op) (hlt : ∀ j, t.nodes j ≠ none → j < t.nNode) :
    (∀ i n, t.nodes i = some n → ∃ n', (t.step op).1.nodes i = some n' ∧ Later n n') ∧
    (∀ j, (t.step op).1.nodes j ≠ none → j < (t.step op).1.nNode) := by
  by_cases hb : isBuild op = false
  · obtain ⟨e1, e2⟩ := step_nodes (t := t) hb
    rw [e1, e2]
    exact ⟨fun i n h => ⟨n, h, Later.refl n⟩, hlt⟩
  have hfresh : ∀ (x : SNode), (∀ i n, t.nodes i = some n → ∃ n', upd t.nodes t.nNode (some x) i = some n' ∧ Later n n') ∧
      (∀ j, upd t.nodes t.nNode (some x) j ≠ none → j < t.nNode + 1) := by
    intro x
    refine ⟨fun i n h => ⟨n, ?_, Later.refl n⟩, fun j hj => ?_⟩
    · have := hlt i (by rw [h]; simp)
      rw [upd, if_neg (by omega)]; exact h
    · by_cases e : j = t.nNode
      · omega
      · rw [upd, if_neg e] at hj; have := hlt j hj; omega
  have hsame : (∀ i n, t.nodes i = some n → ∃ n', t.nodes i = some n' ∧ Later n n') ∧
      (∀ j, t.nodes j ≠ none → j < t.nNode) := ⟨fun i n h => ⟨n, h, Later.refl n⟩, hlt⟩
  cases op with
  | newObj lsb fill fsz size =>
    unfold Spec.step; dsimp only; split <;> exact hsame
  | newObjNode o =>
    unfold Spec.step; dsimp only; split
    · exact hsame
    · exact hfresh _
  | newMapNode b tot =>
    unfold Spec.step; dsimp only; split
    · exact hfresh _
    · exact hsame
  | addMapping i start stop memif dest =>
    unfold Spec.step; dsimp only
    split
    · rename_i n tn g1 g2
      split
      · exact hsame
      · rename_i ms hk
        split
        · refine ⟨fun j nj h => ?_, fun j hj => ?_⟩
          · show ∃ n', upd t.nodes i _ j = some n' ∧ Later nj n'
            by_cases e : j = i
            · subst e
              obtain rfl : nj = n := by rw [g1] at h; exact (Option.some.inj h).symm
              refine ⟨{ nj with kind := .map (ms ++ [⟨start, stop, dest, memif⟩]) }, by rw [upd, if_pos rfl], rfl, rfl, ?_, ?_⟩
              · intro o ho; rw [hk] at ho; cases ho
              · intro ms' hm
                rw [hk] at hm; cases hm
                exact ⟨_, rfl⟩
            · exact ⟨nj, by rw [upd, if_neg e]; exact h, Later.refl nj⟩
          · have hj' : upd t.nodes i _ j ≠ none := hj
            by_cases e : j = i
            · rw [e]; exact hlt i (by rw [g1]; simp)
            · rw [upd, if_neg e] at hj'; exact hlt j hj'
        · exact hsame
    · exact hsame
  | _ => exact absurd rfl hb

theorem runOps_keeps (ops : List Op) : ∀ (t : Spec), (∀ j, t.nodes j ≠ none → j < t.nNode) → ∀ {i n}, t.nodes i = some n →
    ∃ n', (runOps Spec.step t ops).1.nodes i = some n' ∧ Later n n' := by
  induction ops with
  | nil => intro t _ i n h; exact ⟨n, h, Later.refl n⟩
  | cons o ops ih =>
    intro t hlt i n h
    obtain ⟨g1, g2⟩ := step_keeps o hlt
    obtain ⟨n', e1, l1⟩ := g1 i n h
    obtain ⟨n'', e2, l2⟩ := ih (t.step o).1 g2 e1
    exact ⟨n'', e2, l1.trans l2⟩

/-! ### Direct interfaces belong to an interface on an object -/

def DmiNode (t : Spec) (x : Dmi) : Prop :=
  ∃ n, t.nodes x.node = some n ∧ n.kind = .obj x.obj ∧ n.bs = x.size ∧ x.size ∣ x.start ∧ x.start < n.total

/-- the end of the trail is an interface on the object found -/
theorem last_obj {t : Spec} (hc : Cfg t.nodes t.objs) : ∀ (i : Nat) (n : SNode) (a o x : Nat), t.nodes i = some n →
    t.loc i a = some (o, x) → (t.last i a).2 = x ∧
      ∃ m, t.nodes (t.last i a).1 = some m ∧ m.kind = .obj o ∧ m.bs = n.bs ∧ x < m.total := by
  intro i
  induction i using Nat.strongRecOn with
  | ind i ih =>
    intro n a o x hn hl
    by_cases ha : a < n.total
    · cases hk : n.kind with
      | obj o' =>
        obtain ⟨e1, e2⟩ := walk_obj hc hn hk ha
        rw [e1] at hl; cases hl
        unfold Spec.last
        rw [e2]
        exact ⟨rfl, n, hn, hk, rfl, ha⟩
      | map ms =>
        cases hf : ms.find? (hit a) with
        | none => rw [(walk_hole hc hn hk hf).1] at hl; cases hl
        | some m =>
          obtain ⟨e1, e2⟩ := walk_map hc hn hk ha hf
          have mo := (hc i n hn).map ms hk m (List.mem_of_find?_eq_some hf)
          obtain ⟨tn, g1, g2⟩ := mo.tgt
          rw [e1] at hl
          obtain ⟨h1, nn, h2, h3, h4, h5⟩ := ih m.memif mo.lt tn _ o x g1 hl
          have hne : t.trail m.memif (m.destOff + (a - m.start)) ≠ [] := by
            unfold Spec.trail walk
            rw [g1]; dsimp only
            split
            · split
              · simp
              · split <;> simp
            · simp
          have e3 : t.last i a = t.last m.memif (m.destOff + (a - m.start)) := by
            unfold Spec.last
            rw [e2]
            cases hq : t.trail m.memif (m.destOff + (a - m.start)) with
            | nil => exact absurd hq hne
            | cons p l => simp [List.getLastD]
          rw [e3]
          exact ⟨h1, nn, h2, h3, by rw [h4, g2], h5⟩
    · obtain ⟨e1, _⟩ := walk_out hc hn (a := a) (by omega)
      rw [e1] at hl; cases hl

theorem step_dmi {s t} (r : SRep s t) (op : Op) (h : ∀ x ∈ t.dmis, DmiNode t x) :
    ∀ x ∈ (t.step op).1.dmis, DmiNode (t.step op).1 x := by
  have hk := (step_keeps op (fun j hj => (r.nodeLt j).1 hj)).1
  have hold : ∀ x, DmiNode t x → DmiNode (t.step op).1 x := by
    rintro x ⟨n, g1, g2, g3, g4, g5⟩
    obtain ⟨n', e1, l1, l2, l3, _⟩ := hk _ _ g1
    exact ⟨n', e1, l3 _ g2, by rw [l1, g3], g4, by rw [l2]; exact g5⟩
  have hsame : (t.step op).1.dmis = t.dmis → ∀ x ∈ (t.step op).1.dmis, DmiNode (t.step op).1 x := by
    intro e x hx
    rw [e] at hx
    exact hold x (h x hx)
  cases op with
  | newObj _ _ _ _ => apply hsame; unfold Spec.step; dsimp only; split <;> rfl
  | newObjNode _ => apply hsame; unfold Spec.step; dsimp only; split <;> rfl
  | newMapNode _ _ => apply hsame; unfold Spec.step; dsimp only; split <;> rfl
  | addMapping _ _ _ _ _ =>
    apply hsame; unfold Spec.step; dsimp only; split
    · split
      · rfl
      · split <;> rfl
    · rfl
  | observe _ _ _ => exact hsame rfl
  | tryRead j a k => apply hsame; show (t.tryRead j a k).1.dmis = _; unfold Spec.tryRead; dsimp only; split <;> rfl
  | read j a k => apply hsame; show (t.tryRead j a k).1.dmis = _; unfold Spec.tryRead; dsimp only; split <;> rfl
  | tryWrite j a bs =>
    apply hsame; show (t.tryWrite j a bs).1.dmis = _; unfold Spec.tryWrite; dsimp only; split
    · exact store_dmis _ _ _ _
    · rfl
  | write j a bs =>
    apply hsame; show (t.tryWrite j a bs).1.dmis = _; unfold Spec.tryWrite; dsimp only; split
    · exact store_dmis _ _ _ _
    · rfl
  | tryPeek _ _ _ => exact hsame rfl
  | peek _ _ _ => exact hsame rfl
  | tryPoke j a bs =>
    apply hsame; show (t.tryPoke j a bs).1.dmis = _; unfold Spec.tryPoke; split
    · exact store_dmis _ _ _ _
    · rfl
  | poke j a bs =>
    apply hsame; show (t.tryPoke j a bs).1.dmis = _; unfold Spec.tryPoke; split
    · exact store_dmis _ _ _ _
    · rfl
  | dmiRead d a k => apply hsame; unfold Spec.step; dsimp only; split <;> rfl
  | dmiWrite d a bs =>
    apply hsame; unfold Spec.step; dsimp only; split
    · rfl
    · split <;> rfl
  | invalidate i =>
    intro x hx
    obtain ⟨y, hy, rfl⟩ := List.mem_map.1 hx
    have := hold y (h y hy)
    obtain ⟨n, g1, g2, g3, g4, g5⟩ := this
    refine ⟨n, ?_, ?_, ?_, ?_, ?_⟩ <;> split <;> assumption
  | getDMI i a k =>
    by_cases hcr : t.crosses i a k = true
    · apply hsame
      show (t.getDMI i a k).1.dmis = _
      unfold Spec.getDMI; rw [if_pos hcr]
    · cases hl : t.loc i a with
      | none =>
        apply hsame
        show (t.getDMI i a k).1.dmis = _
        unfold Spec.getDMI; rw [if_neg hcr, hl]
      | some p =>
        obtain ⟨o, y⟩ := p
        have hni : t.nodes i ≠ none := by
          intro e
          unfold Spec.loc walk at hl
          rw [e] at hl; cases hl
        obtain ⟨n, hn⟩ := Option.ne_none_iff_exists'.1 hni
        obtain ⟨g0, m, g1, g2, g3, g4⟩ := last_obj r.cfg i n a o y hn hl
        intro x hx
        have hx' : x ∈ (t.getDMI i a k).1.dmis := hx
        have hm0 := bs_pos (r.cfg _ _ g1).pow
        unfold Spec.getDMI at hx'
        rw [if_neg hcr, hl, g1] at hx'
        dsimp only at hx'
        split at hx'
        · exact hold x (h x hx')
        · rcases List.mem_append.1 hx' with hx' | hx'
          · exact hold x (h x hx')
          · rw [List.mem_singleton.1 hx']
            obtain ⟨m', e1, l1, l2, l3, _⟩ := hk _ _ g1
            refine ⟨m', e1, l3 _ g2, l1, Nat.dvd_mul_left _ _, ?_⟩
            rw [l2]
            exact Nat.lt_of_le_of_lt (Nat.div_mul_le_self _ _) g4

theorem runOps_dmi (ops : List Op) : ∀ (s : Sys) (t : Spec), SRep s t → (∀ x ∈ t.dmis, DmiNode t x) →
    legalOps Spec.step Spec.legal t ops →
    ∀ x ∈ (runOps Spec.step t ops).1.dmis, DmiNode (runOps Spec.step t ops).1 x := by
  induction ops with
  | nil => intro s t _ h _; exact h
  | cons o ops ih =>
    intro s t r h hl
    exact ih (step s o).1 (t.step o).1 (rep_step s t o r hl.1).1 (step_dmi r o h) hl.2

end Sparta.MemIf
