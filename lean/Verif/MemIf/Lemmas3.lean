import Verif.MemIf.Lemmas2

/-!
# Simulation of reads, writes and pokes
-/

namespace Sparta.MemIf

open Sparta.MemoryMap (wordSize Mapping)

/-! ### Stores -/

/-- the state with other objects -/
def Spec.withObjs (t : Spec) (f : Nat → Option ArchData.Spec) : Spec :=
  ⟨t.nObj, t.nNode, f, t.nodes, t.reads, t.writes, t.obsR, t.obsW, t.notes, t.dmis⟩

/-- the objects after bytes were written to object `o` -/
def objStore (f : Nat → Option ArchData.Spec) (o x : Nat) (bs : Bytes) : Nat → Option ArchData.Spec :=
  upd f o ((f o).map fun m => m.store x bs)

theorem setByte_nodes (t : Spec) (i a : Nat) (b : UInt8) : (t.setByte i a b).nodes = t.nodes := by
  unfold Spec.setByte; split <;> rfl

theorem store_nodes (i : Nat) (bs : Bytes) : ∀ (t : Spec) (a : Nat), (t.store i a bs).nodes = t.nodes := by
  induction bs with
  | nil => intro t a; rfl
  | cons b bs ih => intro t a; rw [Spec.store, ih, setByte_nodes]

theorem loc_congr {t t' : Spec} (h : t'.nodes = t.nodes) (i a : Nat) : t'.loc i a = t.loc i a := by
  unfold Spec.loc; rw [h]

theorem store_append (i : Nat) (b1 b2 : Bytes) : ∀ (t : Spec) (a : Nat),
    t.store i a (b1 ++ b2) = (t.store i a b1).store i (a + b1.length) b2 := by
  induction b1 with
  | nil => intro t a; rfl
  | cons b b1 ih =>
    intro t a
    rw [List.cons_append, Spec.store, ih, Spec.store, List.length_cons, Nat.add_assoc, Nat.add_comm 1]

theorem spec_store_cons (m : ArchData.Spec) (x : Nat) (b : UInt8) (bs : Bytes) :
    (ArchData.Spec.store { m with mem := upd m.mem x b } (x + 1) bs) = m.store x (b :: bs) := by
  unfold ArchData.Spec.store
  congr 1
  funext y
  simp only [upd, List.length_cons]
  by_cases h1 : x + 1 ≤ y ∧ y < x + 1 + bs.length
  · rw [if_pos h1, if_pos (by omega), show y - x = (y - (x + 1)) + 1 by omega]; rfl
  · rw [if_neg h1]
    by_cases h2 : y = x
    · subst h2; rw [if_pos rfl, if_pos (by omega), Nat.sub_self]; rfl
    · rw [if_neg h2, if_neg (by omega)]

theorem objStore_cons (f : Nat → Option ArchData.Spec) (o x : Nat) (b : UInt8) (bs : Bytes) :
    objStore (upd f o ((f o).map fun m => { m with mem := upd m.mem x b })) o (x + 1) bs = objStore f o x (b :: bs) := by
  unfold objStore
  funext y
  unfold upd
  by_cases h : y = o
  · subst h
    simp only [if_pos rfl]
    cases f y with
    | none => rfl
    | some m => simp only [Option.map_some]; exact congrArg some (spec_store_cons m x b bs)
  · simp only [if_neg h]

theorem store_nil (m : ArchData.Spec) (x : Nat) : m.store x [] = m := by
  unfold ArchData.Spec.store
  have : (fun y => if x ≤ y ∧ y < x + ([] : List UInt8).length then ([] : List UInt8).getD (y - x) 0 else m.mem y) = m.mem := by
    funext y
    rw [if_neg (by simp only [List.length_nil]; omega)]
  rw [this]

theorem objStore_nil (f : Nat → Option ArchData.Spec) (o x : Nat) : objStore f o x [] = f := by
  unfold objStore
  funext y
  unfold upd
  by_cases h : y = o
  · subst h
    rw [if_pos rfl]
    cases f y with
    | none => rfl
    | some m => simp only [Option.map_some, store_nil]
  · rw [if_neg h]

theorem inBlock_tail {bs a k : Nat} (h0 : 0 < bs) (h : inBlock bs a (k + 1)) (hk : 0 < k) : inBlock bs (a + 1) k := by
  have := (inBlock_div h0 h (j := 1) (by omega)).2
  unfold inBlock at h ⊢
  omega

/-- a store in a block is a store in one object -/
theorem store_block {o : Nat} (bs : Bytes) : ∀ {t : Spec} (_ : Cfg t.nodes t.objs) {i n a x},
    t.nodes i = some n → inBlock n.bs a bs.length → t.loc i a = some (o, x) →
    t.store i a bs = t.withObjs (objStore t.objs o x bs) := by
  induction bs with
  | nil => intro t _ i n a x _ _ _; rw [objStore_nil]; rfl
  | cons b bs ih =>
    intro t hc i n a x hn hb hl
    have h0 := bs_pos (hc i n hn).pow
    have e : t.setByte i a b = t.withObjs (upd t.objs o ((t.objs o).map fun m => { m with mem := upd m.mem x b })) := by
      unfold Spec.setByte; rw [hl]; rfl
    rw [Spec.store, e]
    cases bs with
    | nil =>
      rw [← objStore_cons, objStore_nil]; rfl
    | cons b' bs =>
      have hl' : t.loc i (a + 1) = some (o, x + 1) := loc_add hc hn hb (by simp) hl
      have hc' : Cfg (t.withObjs (upd t.objs o ((t.objs o).map fun m => { m with mem := upd m.mem x b }))).nodes
          (t.withObjs (upd t.objs o ((t.objs o).map fun m => { m with mem := upd m.mem x b }))).objs := by
        intro j nj hj
        have ok := hc j nj hj
        refine ⟨ok.pow, ok.al, ok.lt, ?_, ok.map⟩
        intro o' hk
        obtain ⟨m, g1, g2, g3⟩ := ok.obj o' hk
        by_cases ho : o' = o
        · subst ho
          refine ⟨{ m with mem := upd m.mem x b }, ?_, g2, g3⟩
          show upd t.objs o' _ o' = _
          rw [upd, if_pos rfl, g1]; rfl
        · refine ⟨m, ?_, g2, g3⟩
          show upd t.objs o _ o' = _
          rw [upd, if_neg ho]; exact g1
      refine (ih hc' hn (inBlock_tail h0 hb (by simp)) hl').trans ?_
      show t.withObjs (objStore (upd t.objs o _) o (x + 1) _) = _
      rw [objStore_cons]

/-! ### Changes that keep the relation -/

/-- `DmiOk` when lines are only added -/
theorem dmiOk_upd {objs : Nat → Option ArchData.AD} {o : Nat} {m m' : ArchData.AD} (hm : objs o = some m)
    (hc : m.sameCfg m') (hl : ∀ i, m.find i ≠ none → m'.find i ≠ none) {x : Dmi} (h : DmiOk objs x) :
    DmiOk (upd objs o (some m')) x := by
  obtain ⟨q, h1, h2, h3, h4, h5⟩ := h
  by_cases ho : x.obj = o
  · rw [ho, hm] at h1
    cases h1
    refine ⟨m', ?_, by rw [hc.lineSize]; exact h2, h3, by rw [hc.2.2.2.2.1]; exact h4, hl _ h5⟩
    rw [ho, upd, if_pos rfl]
  · refine ⟨q, ?_, h2, h3, h4, h5⟩
    rw [upd, if_neg ho]; exact h1

/-- a change of one object -/
theorem srep_obj {s t} (r : SRep s t) {o m m' ms ms'} (hm : s.objs o = some m) (hs : t.objs o = some ms)
    (hr : ArchData.Rep m' ms') (h1 : ms'.lsb = ms.lsb) (h2 : ms'.size = ms.size) (hc : m.sameCfg m')
    (hl : ∀ i, m.find i ≠ none → m'.find i ≠ none) :
    SRep { s with objs := upd s.objs o (some m') } (t.withObjs (upd t.objs o (some ms'))) := by
  have hdvd : 2 ^ ms'.lsb ∣ ms'.size ∧ 0 < ms'.size := by
    obtain ⟨_, _, _, g⟩ := r.obj hs
    rw [h1, h2]; exact g
  refine ⟨r.nObj, r.nNode, r.reads, r.writes, r.obsR, r.obsW, r.notes, r.dmis, ?_, ?_, r.nodes, r.nodeLt, ?_, ?_⟩
  · intro o'
    show ObjRep (upd s.objs o _ o') (upd t.objs o _ o')
    unfold upd
    by_cases ho : o' = o
    · rw [if_pos ho, if_pos ho]; exact Or.inr ⟨m', ms', rfl, rfl, hr, hdvd⟩
    · rw [if_neg ho, if_neg ho]; exact r.objs o'
  · intro o' h
    by_cases ho : o' = o
    · rw [ho]; exact r.objLt o (by rw [hs]; simp)
    · have h' : upd t.objs o (some ms') o' ≠ none := h
      rw [upd, if_neg ho] at h'
      exact r.objLt o' h'
  · intro j nj hj
    have ok := r.cfg j nj hj
    refine ⟨ok.pow, ok.al, ok.lt, ?_, ok.map⟩
    intro o' hk
    obtain ⟨q, g1, g2, g3⟩ := ok.obj o' hk
    show ∃ m, upd t.objs o _ o' = _ ∧ _
    unfold upd
    by_cases ho : o' = o
    · rw [ho, hs] at g1; cases g1
      rw [if_pos ho]; exact ⟨ms', rfl, by rw [h1]; exact g2, by rw [h2]; exact g3⟩
    · rw [if_neg ho]; exact ⟨q, g1, g2, g3⟩
  · intro x hx
    exact dmiOk_upd hm hc hl (r.dmi x hx)

theorem srep_writes {s t} (r : SRep s t) (f : Nat → Nat) : SRep { s with writes := f } { t with writes := f } :=
  ⟨r.nObj, r.nNode, r.reads, rfl, r.obsR, r.obsW, r.notes, r.dmis, r.objs, r.objLt, r.nodes, r.nodeLt, r.cfg, r.dmi⟩

theorem srep_reads {s t} (r : SRep s t) (f : Nat → Nat) : SRep { s with reads := f } { t with reads := f } :=
  ⟨r.nObj, r.nNode, rfl, r.writes, r.obsR, r.obsW, r.notes, r.dmis, r.objs, r.objLt, r.nodes, r.nodeLt, r.cfg, r.dmi⟩

theorem srep_notes {s t} (r : SRep s t) (l : List Note) : SRep { s with notes := l } { t with notes := l } :=
  ⟨r.nObj, r.nNode, r.reads, r.writes, r.obsR, r.obsW, rfl, r.dmis, r.objs, r.objLt, r.nodes, r.nodeLt, r.cfg, r.dmi⟩

/-- a write of an object in a block -/
theorem obj_write {s t} (r : SRep s t) {i sn o} (hn : t.nodes i = some sn) (hk : sn.kind = .obj o) {a : Nat} {bs : Bytes}
    (ha : a < sn.total) (hb : inBlock sn.bs a bs.length) :
    ∃ m, s.objs o = some m ∧ (m.write a bs).2 = true ∧
      SRep { s with objs := upd s.objs o (some (m.write a bs).1) } (t.withObjs (objStore t.objs o a bs)) := by
  have ok := r.cfg i sn hn
  obtain ⟨ms, h1, h2, h3⟩ := ok.obj o hk
  obtain ⟨m, h4, rep, h5⟩ := r.obj h1
  have hls : 2 ^ ms.lsb = m.lineSize := rep.ls
  have hle := ArchData.lineSize_le rep.wf
  rw [← hls, h2] at hle
  have hb' : a % sn.bs + bs.length ≤ sn.bs := hb
  have hk' : bs.length < 2 ^ 63 := by
    have : (2 : Nat) ^ 31 < 2 ^ 63 := Nat.pow_lt_pow_right (by omega) (by omega)
    omega
  have hin : ms.inLine a bs.length = true := by
    unfold ArchData.Spec.inLine
    rw [h2, h3]; simp; exact ⟨ha, hb⟩
  obtain ⟨g1, g2⟩ := ArchData.rep_store rep a bs hk'
  rw [if_pos hin] at g1
  obtain ⟨_, w2, _, _, w5⟩ := ArchData.write_spec rep.wf a bs hk'
  refine ⟨m, h4, by rw [g2]; exact hin, ?_⟩
  have := srep_obj r h4 h1 g1 rfl rfl w2 (fun j hj hh => hj (by rw [← w5 j (Or.inl hh)]; exact hh))
  unfold objStore
  rw [h1]
  exact this

/-! ### The interfaces passed -/

theorem crosses_eq {t : Spec} (hc : Cfg t.nodes t.objs) {i sn a k} (hn : t.nodes i = some sn) (h : 0 < k) :
    t.crosses i a k = true ↔ ¬ inBlock sn.bs a k := by
  unfold Spec.crosses
  rw [hn]
  rw [inBlock_iff (bs_pos (hc i sn hn).pow) h]
  simp

theorem spans_crosses {s t} (r : SRep s t) {i n sn a k} (hn : t.nodes i = some sn) (hr : NRep n sn) (hs : sized a k) :
    n.spans a k = t.crosses i a k := by
  rw [spans_eq (hr.pow (r.cfg i sn hn).pow) hs, Spec.crosses, hn, hr.bs]

theorem trail_le {t : Spec} (hc : Cfg t.nodes t.objs) : ∀ (i a : Nat) (p : Nat × Nat), p ∈ t.trail i a → p.1 ≤ i := by
  intro i
  induction i using Nat.strongRecOn with
  | ind i ih =>
    intro a p hp
    cases hn : t.nodes i with
    | none =>
      unfold Spec.trail walk at hp
      rw [hn] at hp
      cases hp
    | some n =>
      by_cases ha : a < n.total
      · cases hk : n.kind with
        | obj o => rw [(walk_obj hc hn hk ha).2] at hp; rw [List.mem_singleton.1 hp]; exact Nat.le_refl _
        | map ms =>
          cases hf : ms.find? (hit a) with
          | none => rw [(walk_hole hc hn hk hf).2] at hp; rw [List.mem_singleton.1 hp]; exact Nat.le_refl _
          | some m =>
            have mo := (hc i n hn).map ms hk m (List.mem_of_find?_eq_some hf)
            have hlt := mo.lt
            rw [(walk_map hc hn hk ha hf).2] at hp
            rcases List.mem_cons.1 hp with rfl | hp
            · exact Nat.le_refl _
            · have := ih m.memif mo.lt _ p hp
              omega
      · rw [(walk_out hc hn (by omega)).2] at hp; rw [List.mem_singleton.1 hp]; exact Nat.le_refl _

theorem bump_one (f : Nat → Nat) (i : Nat) : bump f [i] = upd f i (f i + 1) := by
  funext j
  unfold bump upd
  by_cases h : j = i
  · subst h; simp
  · simp [h]

theorem bump_cons (f : Nat → Nat) (i : Nat) (l : List Nat) (h : i ∉ l) : bump (bump f [i]) l = bump f (i :: l) := by
  funext j
  unfold bump
  by_cases h1 : j = i
  · subst h1; simp [h]
  · simp [h1]

theorem upTo_sub (p : Nat → Bool) (l : List Nat) : ∀ j, j ∈ upTo p l → j ∈ l := by
  induction l with
  | nil => intro j h; exact h
  | cons x l ih =>
    intro j h
    unfold upTo at h
    by_cases hp : p x = true
    · rw [if_pos hp] at h; simp at h; simp [h]
    · rw [if_neg hp] at h
      rcases List.mem_cons.1 h with rfl | h
      · exact List.mem_cons_self ..
      · exact List.mem_cons_of_mem _ (ih j h)

/-! ### Writes -/

/-- the notes of a write -/
def wNotes (t : Spec) (i a : Nat) (prior bs : Bytes) : List Note :=
  ((t.trail i a).reverse.filter (fun p => t.obsW p.1)).map (fun p => Note.write p.1 p.2 prior bs)

theorem tryWrite_ok {t : Spec} (hc : Cfg t.nodes t.objs) {i n a o x} {bs : Bytes} (hn : t.nodes i = some n)
    (h0 : 0 < bs.length) (hb : inBlock n.bs a bs.length) (hl : t.loc i a = some (o, x)) :
    t.tryWrite i a bs = (⟨t.nObj, t.nNode, objStore t.objs o x bs, t.nodes, t.reads,
      bump t.writes ((t.trail i a).map (·.1)), t.obsR, t.obsW, t.notes ++ wNotes t i a (t.load i a bs.length) bs, t.dmis⟩, true) := by
  have hcr : t.crosses i a bs.length = false := by
    rw [Bool.eq_false_iff]; intro h; exact (crosses_eq hc hn h0).1 h hb
  have hm : t.mapped i a bs.length = true := by rw [mapped_block hc hn hb h0, hl]; rfl
  unfold Spec.tryWrite
  dsimp only
  rw [if_pos ⟨hcr, hm⟩, store_block bs (t := { t with writes := bump t.writes (t.counted i a bs.length) }) hc hn hb hl]
  simp only [Spec.counted, hcr]
  rfl

theorem tryWrite_fail {t : Spec} (hc : Cfg t.nodes t.objs) {i n a} {bs : Bytes} (hn : t.nodes i = some n)
    (h0 : 0 < bs.length) (hb : inBlock n.bs a bs.length) (hl : t.loc i a = none) :
    t.tryWrite i a bs = ({ t with writes := bump t.writes (upTo t.obsW ((t.trail i a).map (·.1))) }, false) := by
  have hcr : t.crosses i a bs.length = false := by
    rw [Bool.eq_false_iff]; intro h; exact (crosses_eq hc hn h0).1 h hb
  have hm : t.mapped i a bs.length = false := by rw [mapped_block hc hn hb h0, hl]; rfl
  unfold Spec.tryWrite
  dsimp only
  rw [if_neg (by rw [hm]; simp)]
  simp only [Spec.counted, hcr]
  rfl

theorem tryWrite_cross {t : Spec} (hc : Cfg t.nodes t.objs) {i n a} {bs : Bytes} (hn : t.nodes i = some n)
    (h0 : 0 < bs.length) (hb : ¬ inBlock n.bs a bs.length) :
    t.tryWrite i a bs = ({ t with writes := bump t.writes [i] }, false) := by
  have hcr : t.crosses i a bs.length = true := (crosses_eq hc hn h0).2 hb
  unfold Spec.tryWrite
  dsimp only
  rw [if_neg (by rw [hcr]; simp)]
  simp only [Spec.counted, hcr]
  have : upTo t.obsW [i] = [i] := by unfold upTo; split <;> rfl
  simp only [if_true, this]

theorem trail_single_fail {t : Spec} {i a : Nat} (h : t.trail i a = [(i, a)]) :
    upTo t.obsW ((t.trail i a).map (·.1)) = [i] := by
  rw [h]
  show (if t.obsW i = true then [i] else i :: upTo t.obsW []) = [i]
  split <;> rfl

theorem wNotes_cons {t : Spec} {i a j b : Nat} {prior bs : Bytes} (h : t.trail i a = (i, a) :: t.trail j b) :
    wNotes t i a prior bs = wNotes t j b prior bs ++ (if t.obsW i then [Note.write i a prior bs] else []) := by
  unfold wNotes
  rw [h, List.reverse_cons, List.filter_append, List.map_append]
  congr 1
  cases ho : t.obsW i <;> simp [ho]

theorem tryWrite_sim : ∀ (d i : Nat) (s : Sys) (t : Spec) (a : Nat) (bs : Bytes), SRep s t → i < d → i < t.nNode →
    sized a bs.length → ∃ s', tryWrite d s i a bs = some (s', (t.tryWrite i a bs).2) ∧ SRep s' (t.tryWrite i a bs).1 := by
  intro d
  induction d with
  | zero => intro i s t a bs _ h; omega
  | succ d ih =>
    intro i s t a bs r hd hi hs
    obtain ⟨sn, hn⟩ := Option.ne_none_iff_exists'.1 ((r.nodeLt i).2 hi)
    have ok := r.cfg i sn hn
    have hp := bs_pos ok.pow
    obtain ⟨n, hs1, hr⟩ := r.node hn
    have h0 := hs.1
    have r1 : SRep { s with writes := upd s.writes i (s.writes i + 1) } { t with writes := bump t.writes [i] } := by
      have := srep_writes r (bump t.writes [i])
      rw [bump_one, ← r.writes] at this
      rw [bump_one, ← r.writes]; exact this
    unfold tryWrite
    rw [hs1]
    dsimp only
    rw [spans_crosses r hn hr hs]
    by_cases hb : inBlock sn.bs a bs.length
    · have hcr : t.crosses i a bs.length = false := by
        rw [Bool.eq_false_iff]; intro h; exact (crosses_eq r.cfg hn h0).1 h hb
      rw [if_neg (by rw [hcr]; simp), inWindow_eq hr.lo hs, hr.hi]
      by_cases ha : a < sn.total
      · have hle := inBlock_le hp ok.al ha hb
        rw [if_neg (by simp; omega)]
        have hob : s.obsW i = t.obsW i := by rw [r.obsW]
        have hpk : tryPeek { s with writes := upd s.writes i (s.writes i + 1) } (d + 1) i a bs.length =
            blockRes t i a bs.length := tryPeek_block r1 (d + 1) i sn a bs.length hd hn hs hb
        cases hk : n.kind with
        | obj o =>
          have hk' := hr.obj o hk
          have hl := (walk_obj r.cfg hn hk' ha).1
          have htr := (walk_obj r.cfg hn hk' ha).2
          rw [tryWrite_ok r.cfg hn h0 hb hl]
          obtain ⟨m, g1, g2, g3⟩ := obj_write r1 hn hk' ha hb
          have hw : write_ { s with writes := upd s.writes i (s.writes i + 1) } (tryWrite d) n a bs =
              some ({ s with writes := upd s.writes i (s.writes i + 1), objs := upd s.objs o (some (m.write a bs).1) }, true) := by
            unfold write_
            rw [hk]
            dsimp only
            have g1' : s.objs o = some m := g1
            rw [g1']
            dsimp only
            rw [show m.write a bs = ((m.write a bs).1, true) from Prod.ext rfl g2]
          rw [hpk, hw, htr]
          have e1 : ((([(i, a)] : List (Nat × Nat)).map (·.1))) = [i] := rfl
          rw [e1]
          have hwn : wNotes t i a (t.load i a bs.length) bs =
              (if t.obsW i then [Note.write i a (t.load i a bs.length) bs] else []) := by
            unfold wNotes; rw [htr]
            cases ho : t.obsW i <;> simp [ho]
          rw [hwn, hob]
          cases ho : t.obsW i with
          | false =>
            refine ⟨_, rfl, ?_⟩
            simp only [Bool.false_eq_true, if_false, List.append_nil]
            exact g3
          | true =>
            have := srep_notes g3 (t.notes ++ [Note.write i a (t.load i a bs.length) bs])
            rw [← r.notes] at this
            simp only [blockRes, hl]
            refine ⟨_, rfl, ?_⟩
            simp only [if_true]
            rw [← r.notes]
            exact this
        | map mp =>
          obtain ⟨hk', _, _, tr, I⟩ := hr.map mp hk
          cases hf : mp.mappings.find? (hit a) with
          | none =>
            obtain ⟨hl, htr⟩ := walk_hole r.cfg hn hk' hf
            have hw : write_ { s with writes := upd s.writes i (s.writes i + 1) } (tryWrite d) n a bs =
                some ({ s with writes := upd s.writes i (s.writes i + 1) }, false) := by
              unfold write_
              rw [hk]
              dsimp only
              rw [findMapping_eq I, hf]
            rw [tryWrite_fail r.cfg hn h0 hb hl, trail_single_fail htr, hpk, hw]
            simp only [blockRes, hl]
            refine ⟨_, ?_, r1⟩
            cases s.obsW i <;> rfl
          | some m =>
            obtain ⟨g1, g2, tn, g3, g4, g5, g6⟩ := map_next r.cfg hn hk' hf hb h0
            obtain ⟨wl, wt⟩ := walk_map r.cfg hn hk' ha hf
            obtain ⟨s', q1, q2⟩ := ih m.memif _ _ (m.destOff + (a - m.start)) bs r1 (by omega)
              ((r.nodeLt _).1 (by rw [g3]; simp)) g6
            have hw : write_ { s with writes := upd s.writes i (s.writes i + 1) } (tryWrite d) n a bs =
                tryWrite d { s with writes := upd s.writes i (s.writes i + 1) } m.memif (m.destOff + (a - m.start)) bs := by
              unfold write_
              rw [hk]
              dsimp only
              rw [findMapping_eq I, hf]
              dsimp only
              rw [g2]
            have hni : i ∉ (t.trail m.memif (m.destOff + (a - m.start))).map (·.1) := by
              intro h
              obtain ⟨p, hp1, hp2⟩ := List.mem_map.1 h
              have := trail_le r.cfg _ _ p hp1
              omega
            rw [hpk, hw, q1]
            cases hl : t.loc i a with
            | none =>
              rw [tryWrite_fail r.cfg hn h0 hb hl, wt]
              have q2' := q2
              rw [tryWrite_fail (t := { t with writes := bump t.writes [i] }) r.cfg g3 h0 g5 (wl.symm.trans hl)] at q2' ⊢
              simp only [blockRes, hl]
              rw [List.map_cons, upTo, hob]
              cases ho : t.obsW i with
              | true => exact ⟨_, rfl, r1⟩
              | false =>
                refine ⟨s', rfl, ?_⟩
                simp only [Bool.false_eq_true, if_false]
                rw [← bump_cons _ _ _ (fun h => hni (upTo_sub _ _ _ h))]
                exact q2'
            | some p =>
              obtain ⟨o, x⟩ := p
              rw [tryWrite_ok r.cfg hn h0 hb hl, wt, List.map_cons]
              have q2' := q2
              rw [tryWrite_ok (t := { t with writes := bump t.writes [i] }) r.cfg g3 h0 g5 (wl.symm.trans hl)] at q2' ⊢
              have hld : Spec.load { t with writes := bump t.writes [i] } m.memif (m.destOff + (a - m.start)) bs.length =
                  t.load i a bs.length := (load_map r.cfg hn hk' ha hf hb).symm
              rw [hld] at q2'
              rw [wNotes_cons wt, ← bump_cons _ _ _ hni, hob]
              simp only [blockRes, hl]
              cases ho : t.obsW i with
              | false =>
                refine ⟨s', rfl, ?_⟩
                simp only [Bool.false_eq_true, if_false, List.append_nil]
                exact q2'
              | true =>
                have q3 := srep_notes q2' (t.notes ++ (wNotes t m.memif (m.destOff + (a - m.start)) (t.load i a bs.length) bs ++
                  [Note.write i a (t.load i a bs.length) bs]))
                have e : s'.notes = t.notes ++ wNotes t m.memif (m.destOff + (a - m.start)) (t.load i a bs.length) bs :=
                  q2'.notes
                refine ⟨{ s' with notes := s'.notes ++ [Note.write i a (t.load i a bs.length) bs] }, rfl, ?_⟩
                simp only [if_true]
                rw [e, List.append_assoc]
                exact q3
      · rw [if_pos (by simp; omega)]
        obtain ⟨hl, htr⟩ := walk_out r.cfg hn (Nat.not_lt.1 ha)
        rw [tryWrite_fail r.cfg hn h0 hb hl, trail_single_fail htr]
        exact ⟨_, rfl, r1⟩
    · rw [if_pos ((crosses_eq r.cfg hn h0).2 hb), tryWrite_cross r.cfg hn h0 hb]
      exact ⟨_, rfl, r1⟩

end Sparta.MemIf
