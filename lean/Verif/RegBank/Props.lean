import Verif.RegBank.Model
/-!
C251 and C252: the registers of a bank table.
-/
namespace Sparta.RegBank

/-- what the table is for: the registers accepted so far that can be looked up, oldest first, and the number of banks -/
structure Spec where
  regs : List Reg
  banks : Nat

/-- a register can be seen in a bank: in every bank if it names none -/
def seen (r : Reg) (b : Nat) : Prop := r.mem = [] ∨ b ∈ r.mem

instance (r : Reg) (b : Nat) : Decidable (seen r b) := inferInstanceAs (Decidable (_ ∨ _))

/-- two registers with the same group number and index would be seen in one bank -/
def clash (r q : Reg) : Prop := q.num = r.num ∧ q.idx = r.idx ∧ (q.mem = [] ∨ r.mem = [] ∨ ∃ b, b ∈ r.mem ∧ b ∈ q.mem)

instance (r q : Reg) : Decidable (∃ b, b ∈ r.mem ∧ b ∈ q.mem) :=
  decidable_of_iff (r.mem.any (fun b => decide (b ∈ q.mem)) = true) (by simp)

instance (r q : Reg) : Decidable (clash r q) := inferInstanceAs (Decidable (_ ∧ _ ∧ (_ ∨ _ ∨ _)))

/-- the register may be added -/
def fits (s : Spec) (r : Reg) : Prop :=
  if r.num = 2 ^ 32 - 1 then r.mem = [] else (∀ b ∈ r.mem, b < 256) ∧ ∀ q ∈ s.regs, ¬ clash r q

instance (s : Spec) (r : Reg) : Decidable (fits s r) := by unfold fits; infer_instance

/-- what a call should do -/
def sstep (s : Spec) : Op → Spec × Res
  | .add r =>
    if fits s r then
      (if r.num = 2 ^ 32 - 1 then s else ⟨s.regs ++ [r], r.mem.foldl (fun n b => max n (b + 1)) s.banks⟩, .ok)
    else (s, .refused)
  | .minBank b => (⟨s.regs, max s.banks (b + 1)⟩, .ok)

/-- what a history should do: one bank at first -/
def srun (ops : List Op) : Spec × List Res := runOps sstep ⟨[], 1⟩ ops

/-- the calls covered: group numbers and banks in the range of their types, no bank named twice -/
def legal : Op → Prop
  | .add r => r.num < 2 ^ 32 ∧ (∀ b ∈ r.mem, b < 2 ^ 32) ∧ r.mem.Nodup
  | .minBank b => b < 2 ^ 32 - 1

/-- the registers of a group of a bank -/
def groupOf (L : List Reg) (b g : Nat) : List Reg := L.filter (fun r => decide (seen r b) && r.num == g)

/-! ### the relation -/

structure Rel (t : Table) (s : Spec) : Prop where
  len : t.banks.length = s.banks
  pos : 0 < s.banks
  grp : ∀ b, b < s.banks → ∀ g, groupAt (t.banks.getD b []) g = (groupOf s.regs b g).map (fun r => (r.idx, r))
  unb : t.unbanked = s.regs.filter (fun r => decide (r.mem = []))
  inb : ∀ r ∈ s.regs, ∀ b ∈ r.mem, b < s.banks
  noc : s.regs.Pairwise (fun q r => ¬ clash r q)
  num : ∀ r ∈ s.regs, r.num < 2 ^ 32 - 1
  ng : t.numGroups = s.regs.foldl (fun n r => max n (r.num + 1)) 0
  nr : t.numRegs = s.regs.length % 2 ^ 32

theorem groupAt_pad (b : Bank) (k g : Nat) : groupAt (b ++ List.replicate k []) g = groupAt b g := by
  unfold groupAt
  simp only [List.getD_eq_getElem?_getD, List.getElem?_append, List.getElem?_replicate]
  split
  · rfl
  · rename_i h
    rw [List.getElem?_eq_none (by omega)]
    split <;> rfl

theorem insertReg_some {b : Bank} {r : Reg} (h : (groupAt b r.num).lookup r.idx = none) :
    ∃ b', insertReg b r = some b' ∧ ∀ g, groupAt b' g = groupAt b g ++ (if g = r.num then [(r.idx, r)] else []) := by
  unfold insertReg
  dsimp only
  rw [groupAt_pad, h]
  refine ⟨_, rfl, fun g => ?_⟩
  have hl : r.num < (b ++ List.replicate (r.num + 1 - b.length) ([] : Group)).length := by simp; omega
  by_cases hg : g = r.num
  · subst hg
    rw [if_pos rfl]
    conv => lhs; unfold groupAt
    rw [List.getD_eq_getElem?_getD, List.getElem?_set_self hl]
    rfl
  · rw [if_neg hg, List.append_nil, ← groupAt_pad b (r.num + 1 - b.length) g]
    conv => lhs; unfold groupAt
    rw [List.getD_eq_getElem?_getD, List.getElem?_set_ne (Ne.symm hg), ← List.getD_eq_getElem?_getD]
    rfl

theorem lookup_map_none {l : List Reg} {i : Nat} :
    (l.map (fun r => (r.idx, r))).lookup i = none ↔ ∀ r ∈ l, r.idx ≠ i := by
  induction l with
  | nil => simp
  | cons a l ih =>
    rw [List.map_cons, List.lookup_cons]
    by_cases h : i = a.idx
    · subst h; simp
    · have : (i == a.idx) = false := by simpa using h
      rw [this]
      simp only [List.mem_cons, forall_eq_or_imp]
      rw [ih]
      exact ⟨fun x => ⟨fun e => h e.symm, x⟩, fun x => x.2⟩

theorem lookup_map_mem {l : List Reg} {i : Nat} {r : Reg} (h : (l.map (fun r => (r.idx, r))).lookup i = some r) :
    r ∈ l ∧ r.idx = i := by
  induction l with
  | nil => simp at h
  | cons a l ih =>
    rw [List.map_cons, List.lookup_cons] at h
    by_cases e : i = a.idx
    · subst e
      simp only [beq_self_eq_true] at h
      cases h
      simp
    · have : (i == a.idx) = false := by simpa using e
      rw [this] at h
      exact ⟨List.mem_cons_of_mem _ (ih h).1, (ih h).2⟩

theorem insertAll_spec (r : Reg) : ∀ (is : List Nat) (bs : List Bank), is.Nodup → (∀ i ∈ is, i < bs.length) →
    (∀ i ∈ is, (groupAt (bs.getD i []) r.num).lookup r.idx = none) →
    (insertAll r is bs).2 = true ∧ (insertAll r is bs).1.length = bs.length ∧
    ∀ b g, groupAt ((insertAll r is bs).1.getD b []) g =
      groupAt (bs.getD b []) g ++ (if b ∈ is ∧ g = r.num then [(r.idx, r)] else [])
  | [], bs, _, _, _ => by simp [insertAll]
  | i :: is, bs, hn, hl, hf => by
    obtain ⟨b', e, hb'⟩ := insertReg_some (hf i (by simp))
    rw [List.nodup_cons] at hn
    have hi : i < bs.length := hl i (by simp)
    have key : ∀ b, b ≠ i → (bs.set i b').getD b [] = bs.getD b [] := by
      intro b hb
      rw [List.getD_eq_getElem?_getD, List.getElem?_set_ne (Ne.symm hb), ← List.getD_eq_getElem?_getD]
    have keyi : (bs.set i b').getD i [] = b' := by
      rw [List.getD_eq_getElem?_getD, List.getElem?_set_self hi]; rfl
    obtain ⟨h1, h2, h3⟩ := insertAll_spec r is (bs.set i b') hn.2 (by
        intro j hj; rw [List.length_set]; exact hl j (by simp [hj])) (by
        intro j hj
        have : j ≠ i := fun x => hn.1 (x ▸ hj)
        rw [key j this]
        exact hf j (by simp [hj]))
    simp only [insertAll]
    rw [e]
    refine ⟨h1, by rw [h2, List.length_set], fun b g => ?_⟩
    rw [h3]
    by_cases hb : b = i
    · subst hb
      rw [keyi, hb']
      by_cases hg : g = r.num <;> simp [hg, hn.1]
    · rw [key b hb]
      simp [hb]

theorem canLookup_eq {t : Table} {g i b : Nat} (hb : b < t.banks.length) :
    canLookup t g i b = ((groupAt (t.banks.getD b []) g).lookup i).isSome := by
  unfold canLookup
  have h1 : decide (t.banks.length > b) = true := by simpa using hb
  rw [h1, Bool.true_and]
  by_cases h : (t.banks.getD b []).length > g
  · rw [decide_eq_true h, Bool.true_and]
  · have : groupAt (t.banks.getD b []) g = [] := by
      unfold groupAt
      rw [List.getD_eq_getElem?_getD, List.getElem?_eq_none (by omega)]; rfl
    rw [this]; simp

/-- a place is free in a bank exactly if no accepted register with these numbers is seen there -/
theorem Rel.free {t : Table} {s : Spec} (h : Rel t s) {b : Nat} (hb : b < s.banks) (g i : Nat) :
    (groupAt (t.banks.getD b []) g).lookup i = none ↔ ∀ q ∈ s.regs, ¬ (q.num = g ∧ q.idx = i ∧ seen q b) := by
  rw [h.grp b hb g, lookup_map_none]
  unfold groupOf
  constructor
  · intro x q hq hc
    exact x q (by simp [hq, hc.1, hc.2.2]) hc.2.1
  · intro x q hq e
    simp only [List.mem_filter, Bool.and_eq_true, decide_eq_true_eq, beq_iff_eq] at hq
    exact x q hq.1 ⟨hq.2.2, e, hq.2.1⟩

theorem newBank_spec : ∀ (us : List Reg) (b : Bank) , us.Pairwise (fun q r => ¬ (q.num = r.num ∧ q.idx = r.idx)) →
    (∀ u ∈ us, (groupAt b u.num).lookup u.idx = none) →
    ∃ b', us.foldlM insertReg b = some b' ∧
      ∀ g, groupAt b' g = groupAt b g ++ (us.filter (fun u => u.num == g)).map (fun r => (r.idx, r))
  | [], b, _, _ => ⟨b, rfl, by simp⟩
  | u :: us, b, hp, hf => by
    obtain ⟨b1, e1, h1⟩ := insertReg_some (hf u (by simp))
    rw [List.pairwise_cons] at hp
    obtain ⟨b', e, h2⟩ := newBank_spec us b1 hp.2 (by
      intro v hv
      rw [h1]
      have := hf v (by simp [hv])
      rw [List.lookup_append, this]
      by_cases g : v.num = u.num
      · rw [if_pos g]
        have : v.idx ≠ u.idx := fun x => hp.1 v hv ⟨g.symm, x.symm⟩
        have e : (v.idx == u.idx) = false := by simpa using this
        rw [List.lookup_cons, e]; rfl
      · rw [if_neg g]; rfl)
    refine ⟨b', by rw [List.foldlM_cons, e1]; exact e, fun g => ?_⟩
    rw [h2, h1]
    by_cases hg : g = u.num
    · subst hg; simp
    · have : (u.num == g) = false := by simpa using Ne.symm hg
      simp [hg, this]

theorem extend_spec {t : Table} {s : Spec} (h : Rel t s) (n : Nat) :
    ∃ t', extend t n = some t' ∧ Rel t' ⟨s.regs, max s.banks n⟩ := by
  unfold extend
  by_cases hn : n > t.banks.length
  · rw [if_pos hn]
    have hp : (t.unbanked).Pairwise (fun q r => ¬ (q.num = r.num ∧ q.idx = r.idx)) := by
      rw [h.unb]
      have := h.noc.filter (fun r => decide (r.mem = []))
      refine List.Pairwise.imp_of_mem ?_ this
      intro q r hq _ hc hx
      simp only [List.mem_filter, decide_eq_true_eq] at hq
      exact hc ⟨hx.1, hx.2, Or.inl hq.2⟩
    obtain ⟨b, e, hb⟩ := newBank_spec t.unbanked [] hp (by intro u _; simp [groupAt])
    unfold newBank
    rw [e]
    refine ⟨_, rfl, ?_⟩
    have hlen := h.len
    have hm : max s.banks n = n := by omega
    refine ⟨?_, ?_, ?_, h.unb, ?_, h.noc, h.num, h.ng, h.nr⟩
    · simp; omega
    · dsimp only; omega
    · dsimp only
      rw [hm]
      intro c hc g
      by_cases hc1 : c < s.banks
      · rw [← h.grp c hc1 g]
        rw [List.getD_eq_getElem?_getD, List.getElem?_append_left (by omega), ← List.getD_eq_getElem?_getD]
      · rw [List.getD_eq_getElem?_getD, List.getElem?_append_right (by omega), List.getElem?_replicate,
          if_pos (by omega)]
        show groupAt b g = _
        rw [hb, h.unb]
        simp only [groupAt, List.getD_nil, List.nil_append, List.filter_filter]
        unfold groupOf
        congr 1
        apply List.filter_congr
        intro r hr
        have : seen r c ↔ r.mem = [] := by
          unfold seen
          constructor
          · rintro (x | x)
            · exact x
            · exact absurd (h.inb r hr c x) hc1
          · exact Or.inl
        simp only [this]
        rw [Bool.and_comm]
    · intro r hr b' hb'
      have := h.inb r hr b' hb'
      show b' < max s.banks n
      omega
  · rw [if_neg hn]
    have : max s.banks n = s.banks := by have := h.len; omega
    rw [this]
    exact ⟨t, rfl, h⟩

theorem foldl_max_ge (l : List Nat) : ∀ a, a ≤ l.foldl max a ∧ ∀ b ∈ l, b ≤ l.foldl max a := by
  induction l with
  | nil => intro a; simp
  | cons x l ih =>
    intro a
    obtain ⟨h1, h2⟩ := ih (max a x)
    refine ⟨by rw [List.foldl_cons]; omega, ?_⟩
    intro b hb
    rw [List.foldl_cons]
    rcases List.mem_cons.1 hb with rfl | hb
    · omega
    · exact h2 b hb

theorem foldl_max_lt (l : List Nat) (k : Nat) : ∀ a, a < k → (∀ b ∈ l, b < k) → l.foldl max a < k := by
  induction l with
  | nil => intro a ha _; exact ha
  | cons x l ih =>
    intro a ha h
    rw [List.foldl_cons]
    have := h x (by simp)
    exact ih _ (by omega) (fun b hb => h b (by simp [hb]))

theorem foldl_succ (l : List Nat) : ∀ n a, 0 < n →
    l.foldl (fun n b => max n (b + 1)) (max n (a + 1)) = max n (l.foldl max a + 1) := by
  induction l with
  | nil => intro n a _; rfl
  | cons x l ih =>
    intro n a hn
    rw [List.foldl_cons, List.foldl_cons, show max (max n (a + 1)) (x + 1) = max n (max a x + 1) by omega]
    exact ih n (max a x) hn

/-- entering an accepted register -/
theorem enter {t : Table} {s : Spec} (h : Rel t s) {r : Reg} (is : List Nat) (bs : List Bank) (us : List Reg)
    (hnum : r.num < 2 ^ 32 - 1) (hfree : ∀ q ∈ s.regs, ¬ clash r q)
    (his : ∀ b, b < s.banks → (b ∈ is ↔ seen r b)) (hin : ∀ b ∈ r.mem, b < s.banks)
    (hlen : bs.length = t.banks.length)
    (hbs : ∀ b g, groupAt (bs.getD b []) g = groupAt (t.banks.getD b []) g ++ (if b ∈ is ∧ g = r.num then [(r.idx, r)] else []))
    (hus : us = t.unbanked ++ (if r.mem = [] then [r] else [])) :
    Rel (count { t with banks := bs, unbanked := us } r) ⟨s.regs ++ [r], s.banks⟩ := by
  refine ⟨by simp only [count]; rw [hlen, h.len], h.pos, ?_, ?_, ?_, ?_, ?_, ?_, ?_⟩
  · intro b hb g
    simp only [count]
    rw [hbs, h.grp b hb g]
    unfold groupOf
    rw [List.filter_append, List.map_append]
    congr 1
    have := his b hb
    by_cases h1 : seen r b
    · by_cases h2 : g = r.num
      · rw [if_pos ⟨this.2 h1, h2⟩]; simp [h1, h2]
      · rw [if_neg (fun x => h2 x.2)]
        have : (r.num == g) = false := by simpa using Ne.symm h2
        simp [this]
    · rw [if_neg (fun x => h1 (this.1 x.1))]; simp [h1]
  · simp only [count]
    rw [hus, h.unb, List.filter_append]
    congr 1
    by_cases hm : r.mem = [] <;> simp [hm]
  · intro q hq b hb
    rcases List.mem_append.1 hq with hq | hq
    · exact h.inb q hq b hb
    · rw [List.mem_singleton.1 hq] at hb; exact hin b hb
  · dsimp only
    rw [List.pairwise_append]
    refine ⟨h.noc, by simp, ?_⟩
    intro q hq r' hr'
    rw [List.mem_singleton.1 hr']
    exact hfree q hq
  · intro q hq
    rcases List.mem_append.1 hq with hq | hq
    · exact h.num q hq
    · rw [List.mem_singleton.1 hq]; exact hnum
  · simp only [count]
    rw [List.foldl_append, ← h.ng, Nat.mod_eq_of_lt (a := r.num + 1) (by omega)]
    rfl
  · simp only [count]
    rw [h.nr, List.length_append]
    simp

theorem any_free {t : Table} {s : Spec} (h : Rel t s) (r : Reg) (l : List Nat) (hl : ∀ b ∈ l, b < s.banks) :
    l.any (fun b => canLookup t r.num r.idx b) = false ↔
      ∀ b ∈ l, (groupAt (t.banks.getD b []) r.num).lookup r.idx = none := by
  rw [List.any_eq_false]
  constructor
  · intro x b hb
    have := x b hb
    rw [canLookup_eq (by rw [h.len]; exact hl b hb)] at this
    rwa [Bool.not_eq_true, Option.isSome_eq_false_iff, Option.isNone_iff_eq_none] at this
  · intro x b hb
    rw [canLookup_eq (by rw [h.len]; exact hl b hb), x b hb]
    simp

theorem addUnbanked_spec {t : Table} {s : Spec} (h : Rel t s) {r : Reg} (hnum : r.num < 2 ^ 32 - 1) (hm : r.mem = []) :
    ((∀ q ∈ s.regs, ¬ clash r q) → (addUnbanked t r).2 = .ok ∧ Rel (addUnbanked t r).1 ⟨s.regs ++ [r], s.banks⟩) ∧
    ((¬ ∀ q ∈ s.regs, ¬ clash r q) → addUnbanked t r = (t, .refused)) := by
  have hlt : ∀ b ∈ List.range t.banks.length, b < s.banks := by
    intro b hb; rw [← h.len]; exact List.mem_range.1 hb
  have ha := any_free h r (List.range t.banks.length) hlt
  have key : (∀ b ∈ List.range t.banks.length, (groupAt (t.banks.getD b []) r.num).lookup r.idx = none) ↔
      ∀ q ∈ s.regs, ¬ clash r q := by
    constructor
    · intro x q hq hc
      obtain ⟨b, hb, hs⟩ : ∃ b, b < s.banks ∧ seen q b := by
        by_cases hq0 : q.mem = []
        · exact ⟨0, h.pos, Or.inl hq0⟩
        · obtain ⟨b, hb⟩ := List.exists_mem_of_ne_nil _ hq0
          exact ⟨b, h.inb q hq b hb, Or.inr hb⟩
      exact (h.free hb r.num r.idx).1 (x b (List.mem_range.2 (by rw [h.len]; exact hb))) q hq ⟨hc.1, hc.2.1, hs⟩
    · intro x b hb
      rw [h.free (hlt b hb)]
      intro q hq hc
      exact x q hq ⟨hc.1, hc.2.1, Or.inr (Or.inl hm)⟩
  unfold addUnbanked
  constructor
  · intro hf
    have hk := key.2 hf
    rw [ha.2 hk]
    obtain ⟨h1, h2, h3⟩ := insertAll_spec r (List.range t.banks.length) t.banks List.nodup_range
      (fun i hi => List.mem_range.1 hi) hk
    dsimp only
    rw [if_neg (by simp), h1, if_pos rfl]
    refine ⟨rfl, enter h (List.range t.banks.length) _ _ hnum hf ?_ ?_ h2 h3 ?_⟩
    · intro b hb
      rw [List.mem_range, h.len]
      exact ⟨fun _ => Or.inl hm, fun _ => hb⟩
    · rw [hm]; simp
    · rw [if_pos hm]
  · intro hf
    have : (List.range t.banks.length).any (fun b => canLookup t r.num r.idx b) = true := by
      rw [← Bool.not_eq_false, ha, key]; exact hf
    rw [this, if_pos rfl]

theorem addBanked_spec {t : Table} {s : Spec} (h : Rel t s) {r : Reg} (hnum : r.num < 2 ^ 32 - 1) (hm : r.mem ≠ [])
    (hd : r.mem.Nodup) :
    (((∀ b ∈ r.mem, b < 256) ∧ ∀ q ∈ s.regs, ¬ clash r q) → (addBanked t r).2 = .ok ∧
      Rel (addBanked t r).1 ⟨s.regs ++ [r], r.mem.foldl (fun n b => max n (b + 1)) s.banks⟩) ∧
    (¬ ((∀ b ∈ r.mem, b < 256) ∧ ∀ q ∈ s.regs, ¬ clash r q) → addBanked t r = (t, .refused)) := by
  have hany : r.mem.any (fun b => decide (b < t.banks.length) && canLookup t r.num r.idx b) = false ↔
      ∀ b ∈ r.mem, b < s.banks → ∀ q ∈ s.regs, ¬ (q.num = r.num ∧ q.idx = r.idx ∧ seen q b) := by
    rw [List.any_eq_false]
    constructor
    · intro x b hb hlt
      have := x b hb
      have hl : b < t.banks.length := by rw [h.len]; exact hlt
      rw [decide_eq_true hl, Bool.true_and, canLookup_eq hl] at this
      rw [← h.free hlt]
      rwa [Bool.not_eq_true, Option.isSome_eq_false_iff, Option.isNone_iff_eq_none] at this
    · intro x b hb
      by_cases hlt : b < s.banks
      · have hl : b < t.banks.length := by rw [h.len]; exact hlt
        rw [decide_eq_true hl, Bool.true_and, canLookup_eq hl, (h.free hlt _ _).2 (x b hb hlt)]
        simp
      · rw [decide_eq_false (by rw [h.len]; exact hlt)]; simp
  have hunb : t.unbanked.any (fun u => u.num == r.num && u.idx == r.idx) = false ↔
      ∀ q ∈ s.regs, q.mem = [] → ¬ (q.num = r.num ∧ q.idx = r.idx) := by
    rw [List.any_eq_false, h.unb]
    constructor
    · intro x q hq hq0 hc
      exact x q (by simp [hq, hq0]) (by simp [hc.1, hc.2])
    · intro x q hq
      simp only [List.mem_filter, decide_eq_true_eq] at hq
      have := x q hq.1 hq.2
      simpa using this
  have hmax : r.mem.foldl max 0 < 256 ↔ ∀ b ∈ r.mem, b < 256 :=
    ⟨fun x b hb => Nat.lt_of_le_of_lt ((foldl_max_ge r.mem 0).2 b hb) x, foldl_max_lt r.mem 256 0 (by omega)⟩
  unfold addBanked
  dsimp only
  constructor
  · rintro ⟨hb, hf⟩
    have hmx := hmax.2 hb
    rw [hany.2 (by
        intro b hb' _ q hq hc
        refine hf q hq ⟨hc.1, hc.2.1, ?_⟩
        rcases hc.2.2 with x | x
        · exact Or.inl x
        · exact Or.inr (Or.inr ⟨b, hb', x⟩)), if_neg (by simp), if_neg (by unfold errorMax; omega),
      hunb.2 (fun q hq hq0 hc => hf q hq ⟨hc.1, hc.2, Or.inl hq0⟩), if_neg (by simp),
      Nat.mod_eq_of_lt (a := r.mem.foldl max 0 + 1) (by omega)]
    obtain ⟨t1, e, h1⟩ := extend_spec h (r.mem.foldl max 0 + 1)
    rw [e]
    have hbk : r.mem.foldl (fun n b => max n (b + 1)) s.banks = max s.banks (r.mem.foldl max 0 + 1) := by
      rw [← foldl_succ r.mem s.banks 0 h.pos]
      have := h.pos
      rw [show max s.banks (0 + 1) = s.banks by omega]
    rw [hbk]
    have hin : ∀ b ∈ r.mem, b < max s.banks (r.mem.foldl max 0 + 1) := by
      intro b hb'
      have := (foldl_max_ge r.mem 0).2 b hb'
      omega
    obtain ⟨h2, h3, h4⟩ := insertAll_spec r r.mem t1.banks hd
      (fun i hi => by rw [h1.len]; exact hin i hi) (by
        intro i hi
        rw [h1.free (hin i hi)]
        intro q hq hc
        refine hf q hq ⟨hc.1, hc.2.1, ?_⟩
        rcases hc.2.2 with x | x
        · exact Or.inl x
        · exact Or.inr (Or.inr ⟨i, hi, x⟩))
    dsimp only
    rw [h2, if_pos rfl]
    refine ⟨rfl, enter h1 r.mem _ _ hnum hf ?_ hin h3 h4 ?_⟩
    · intro b _
      unfold seen
      simp [hm]
    · rw [if_neg hm, List.append_nil]
  · intro hn
    by_cases c1 : r.mem.any (fun b => decide (b < t.banks.length) && canLookup t r.num r.idx b) = true
    · rw [if_pos c1]
    rw [if_neg c1]
    by_cases c2 : r.mem.foldl max 0 ≥ errorMax
    · rw [if_pos c2]
    rw [if_neg c2]
    by_cases c3 : t.unbanked.any (fun u => u.num == r.num && u.idx == r.idx) = true
    · rw [if_pos c3]
    exfalso
    apply hn
    refine ⟨hmax.1 (by unfold errorMax at c2; omega), ?_⟩
    intro q hq hc
    rw [Bool.not_eq_true] at c1 c3
    rcases hc.2.2 with x | x | ⟨b, hb, x⟩
    · exact hunb.1 c3 q hq x ⟨hc.1, hc.2.1⟩
    · exact hm x
    · exact hany.1 c1 b hb (h.inb q hq b x) q hq ⟨hc.1, hc.2.1, Or.inr x⟩

theorem step_spec {t : Table} {s : Spec} (h : Rel t s) (o : Op) (hl : legal o) :
    Rel (step t o).1 (sstep s o).1 ∧ (step t o).2 = (sstep s o).2 := by
  cases o with
  | add r =>
    obtain ⟨hn, _, hd⟩ := hl
    simp only [step, sstep, addRegister, fits]
    by_cases h0 : r.num = 2 ^ 32 - 1
    · have : r.num = NONE := h0
      simp only [if_pos this, if_pos h0]
      by_cases hm : r.mem = []
      · simp only [hm]; simpa using h
      · simp only [if_neg hm]
        rw [if_pos (by simpa using hm)]
        exact ⟨h, rfl⟩
    · have : r.num ≠ NONE := h0
      simp only [if_neg this, if_neg h0]
      have hnum : r.num < 2 ^ 32 - 1 := by omega
      by_cases hm : r.mem = []
      · obtain ⟨h1, h2⟩ := addUnbanked_spec h hnum hm
        rw [if_pos (by simp [hm])]
        by_cases hf : ∀ q ∈ s.regs, ¬ clash r q
        · rw [if_pos ⟨by simp [hm], hf⟩]
          obtain ⟨a, b⟩ := h1 hf
          refine ⟨?_, a⟩
          simp only [hm, List.foldl_nil]
          exact b
        · rw [if_neg (fun x => hf x.2), h2 hf]
          exact ⟨h, rfl⟩
      · obtain ⟨h1, h2⟩ := addBanked_spec h hnum hm hd
        rw [if_neg (by simpa using hm)]
        by_cases hf : (∀ b ∈ r.mem, b < 256) ∧ ∀ q ∈ s.regs, ¬ clash r q
        · rw [if_pos hf]
          exact ⟨(h1 hf).2, (h1 hf).1⟩
        · rw [if_neg hf, h2 hf]
          exact ⟨h, rfl⟩
  | minBank b =>
    have hb : b < 2 ^ 32 - 1 := hl
    simp only [step, sstep, setMinimumBankIndex]
    rw [Nat.mod_eq_of_lt (by omega)]
    obtain ⟨t', e, h'⟩ := extend_spec h (b + 1)
    rw [e]
    exact ⟨h', rfl⟩

theorem rel_init : Rel Table.init ⟨[], 1⟩ := by
  refine ⟨rfl, by decide, ?_, rfl, by simp, by simp, by simp, rfl, rfl⟩
  intro b hb g
  have : b = 0 := by dsimp only at hb; omega
  subst this
  simp [Table.init, groupAt, groupOf]

theorem run_spec : ∀ (ops : List Op) {t : Table} {s : Spec}, Rel t s → (∀ o ∈ ops, legal o) →
    Rel (runOps step t ops).1 (runOps sstep s ops).1 ∧ (runOps step t ops).2 = (runOps sstep s ops).2
  | [], _, _, h, _ => ⟨h, rfl⟩
  | o :: os, t, s, h, hl => by
    obtain ⟨h1, h2⟩ := step_spec h o (hl o (by simp))
    obtain ⟨h3, h4⟩ := run_spec os h1 (fun x hx => hl x (by simp [hx]))
    exact ⟨h3, by simp [runOps, h2, h4]⟩

/-! ### the properties -/

/-- **C251** (for registers that name no bank twice; otherwise see C251_twice_violated) A register is accepted exactly if it has a group number or
names no banks, names no bank beyond 255, and no register accepted before with its group number and index would be seen in a bank with it. No
internal assertion fails. -/
theorem C251_results_partial (ops : List Op) (hl : ∀ o ∈ ops, legal o) : (run ops).2 = (srun ops).2 :=
  (run_spec ops rel_init hl).2

/-- **C251** A register is found in a bank exactly if it was accepted, has these numbers and is seen in the bank, in whatever order banks and
registers came; the three ways to look it up agree. -/
theorem C251_lookup_partial (ops : List Op) (hl : ∀ o ∈ ops, legal o) (g i b : Nat) (r : Reg) :
    (getRegister (run ops).1 g i b = some r ↔
      b < (srun ops).1.banks ∧ r ∈ (srun ops).1.regs ∧ r.num = g ∧ r.idx = i ∧ seen r b) ∧
    (canLookup (run ops).1 g i b = true ↔ ∃ q, getRegister (run ops).1 g i b = some q) ∧
    (canLookup (run ops).1 g i b = true → lookupRegister (run ops).1 g i b = some (getRegister (run ops).1 g i b)) := by
  have h := (run_spec ops rel_init hl).1
  change Rel (run ops).1 (srun ops).1 at h
  revert h
  generalize (run ops).1 = t
  generalize (srun ops).1 = s
  intro h
  have hget : b < s.banks → getRegister t g i b = (groupAt (t.banks.getD b []) g).lookup i := by
    intro hb
    unfold getRegister
    rw [if_neg (by rw [h.len]; omega)]
    by_cases h1 : (t.banks.getD b []).length ≤ g
    · have : groupAt (t.banks.getD b []) g = [] := by
        unfold groupAt
        rw [List.getD_eq_getElem?_getD, List.getElem?_eq_none h1]; rfl
      rw [if_pos h1, this]; rfl
    · rw [if_neg h1]
      by_cases h2 : (groupAt (t.banks.getD b []) g).length = 0
      · rw [if_pos h2, List.length_eq_zero_iff.1 h2]; rfl
      · rw [if_neg h2]
  have hout : ¬ b < s.banks → getRegister t g i b = none := by
    intro hb
    unfold getRegister
    rw [if_pos (by rw [h.len]; omega)]
  refine ⟨?_, ?_, ?_⟩
  · by_cases hb : b < s.banks
    · rw [hget hb, h.grp b hb g]
      constructor
      · intro x
        obtain ⟨h1, h2⟩ := lookup_map_mem x
        unfold groupOf at h1
        simp only [List.mem_filter, Bool.and_eq_true, decide_eq_true_eq, beq_iff_eq] at h1
        exact ⟨hb, h1.1, h1.2.2, h2, h1.2.1⟩
      · rintro ⟨_, hr, hg, hi, hs⟩
        rcases e : ((groupOf s.regs b g).map (fun r => (r.idx, r))).lookup i with _ | q
        · exact absurd hi ((lookup_map_none.1 e) r (by unfold groupOf; simp [hr, hg, hs]))
        · obtain ⟨h1, h2⟩ := lookup_map_mem e
          unfold groupOf at h1
          simp only [List.mem_filter, Bool.and_eq_true, decide_eq_true_eq, beq_iff_eq] at h1
          rw [e]
          refine congrArg some ?_
          have cl : ∀ a c : Reg, seen a b → seen c b → a.num = c.num → a.idx = c.idx → clash c a := by
            intro a c ha hc e1 e2
            refine ⟨e1, e2, ?_⟩
            rcases ha with x | x
            · exact Or.inl x
            · rcases hc with y | y
              · exact Or.inr (Or.inl y)
              · exact Or.inr (Or.inr ⟨b, y, x⟩)
          obtain ⟨m, hm, em⟩ := List.getElem_of_mem h1.1
          obtain ⟨n, hn, en⟩ := List.getElem_of_mem hr
          have hp := List.pairwise_iff_getElem.1 h.noc
          rcases Nat.lt_trichotomy m n with x | x | x
          · exact absurd (cl q r h1.2.1 hs (h1.2.2.trans hg.symm) (h2.trans hi.symm)) (by
              have := hp m n hm hn x; rwa [em, en] at this)
          · subst x; rw [← em, ← en]
          · exact absurd (cl r q hs h1.2.1 (hg.trans h1.2.2.symm) (hi.trans h2.symm)) (by
              have := hp n m hn hm x; rwa [em, en] at this)
    · rw [hout hb]
      constructor
      · intro x; exact absurd x (by simp)
      · intro x; exact absurd x.1 hb
  · by_cases hb : b < s.banks
    · rw [hget hb, canLookup_eq (by rw [h.len]; exact hb), Option.isSome_iff_exists]
    · rw [hout hb]
      unfold canLookup
      rw [decide_eq_false (by rw [h.len]; omega)]
      simp
  · intro hc
    have hb : b < s.banks := by
      unfold canLookup at hc
      simp only [Bool.and_eq_true, decide_eq_true_eq] at hc
      rw [← h.len]; exact hc.1.1
    rw [hget hb]
    unfold canLookup at hc
    simp only [Bool.and_eq_true, decide_eq_true_eq] at hc
    obtain ⟨⟨c1, c2⟩, _⟩ := hc
    unfold lookupRegister groupAt
    have e1 : t.banks[b]? = some (t.banks.getD b []) := by
      rw [List.getD_eq_getElem?_getD, List.getElem?_eq_getElem c1]; rfl
    rw [e1]
    dsimp only
    have e2 : (t.banks.getD b [])[g]? = some ((t.banks.getD b []).getD g []) := by
      rw [List.getD_eq_getElem?_getD (l := t.banks.getD b []), List.getElem?_eq_getElem c2]; rfl
    rw [e2]

/-- **C252** The number of banks, the size of a group in a bank, the number of registers and the number of groups are those of the accepted
registers. -/
theorem C252_counts_partial (ops : List Op) (hl : ∀ o ∈ ops, legal o) :
    getNumBanks (run ops).1 = (srun ops).1.banks ∧
    (∀ g b, getGroupSize (run ops).1 g b =
      if g = 2 ^ 32 - 1 then some 0 else if b < (srun ops).1.banks then
        some ((srun ops).1.regs.countP (fun r => decide (seen r b ∧ r.num = g))) else none) ∧
    (run ops).1.numRegs = (srun ops).1.regs.length % 2 ^ 32 ∧
    (∀ n, (run ops).1.numGroups ≤ n ↔ ∀ r ∈ (srun ops).1.regs, r.num < n) := by
  have h := (run_spec ops rel_init hl).1
  change Rel (run ops).1 (srun ops).1 at h
  revert h
  generalize (run ops).1 = t
  generalize (srun ops).1 = s
  intro h
  refine ⟨h.len, ?_, h.nr, ?_⟩
  · intro g b
    unfold getGroupSize
    by_cases h0 : g = 2 ^ 32 - 1
    · rw [if_pos (show g = NONE from h0), if_pos h0]
    · rw [if_neg (show g ≠ NONE from h0), if_neg h0]
      by_cases hb : b < s.banks
      · rw [if_neg (by rw [h.len]; omega), if_pos hb]
        have e : (groupAt (t.banks.getD b []) g).length = s.regs.countP (fun r => decide (seen r b ∧ r.num = g)) := by
          rw [h.grp b hb g, List.length_map, List.countP_eq_length_filter]
          unfold groupOf
          congr 2
          funext r
          rw [Bool.decide_and]
          rfl
        rw [← e]
        by_cases h1 : g ≥ (t.banks.getD b []).length
        · have : groupAt (t.banks.getD b []) g = [] := by
            unfold groupAt
            rw [List.getD_eq_getElem?_getD, List.getElem?_eq_none h1]; rfl
          rw [if_pos h1, this]; rfl
        · rw [if_neg h1]
      · rw [if_pos (by rw [h.len]; omega), if_neg hb]
  · intro n
    rw [h.ng]
    have : ∀ (l : List Reg) (a : Nat), l.foldl (fun n r => max n (r.num + 1)) a ≤ n ↔ a ≤ n ∧ ∀ r ∈ l, r.num < n := by
      intro l
      induction l with
      | nil => intro a; simp
      | cons x l ih =>
        intro a
        rw [List.foldl_cons, ih]
        simp only [List.mem_cons, forall_eq_or_imp]
        constructor
        · rintro ⟨h1, h2⟩
          exact ⟨by omega, by omega, h2⟩
        · rintro ⟨h1, h2, h3⟩
          exact ⟨by omega, h3⟩
    rw [this]
    simp

/-- an unbanked register, one in banks 1 and 2, one in bank 3 with the same numbers as the last, and some that are refused -/
def demo : List Op := [.add ⟨1, 0, 0, []⟩, .add ⟨2, 0, 1, [1, 2]⟩, .add ⟨3, 0, 1, [3]⟩, .add ⟨4, 0, 1, [2, 4]⟩,
  .add ⟨5, 0, 0, [1]⟩, .add ⟨6, 0, 1, []⟩, .minBank 5, .add ⟨7, 1, 0, [300]⟩]

example : (∀ o ∈ demo, legal o) ∧ (run demo).2 = [.ok, .ok, .ok, .refused, .refused, .refused, .ok, .refused] ∧
    getRegister (run demo).1 0 1 3 = some ⟨3, 0, 1, [3]⟩ ∧ getRegister (run demo).1 0 0 5 = some ⟨1, 0, 0, []⟩ ∧
    getNumBanks (run demo).1 = 6 ∧ getGroupSize (run demo).1 0 2 = some 2 := by
  refine ⟨?_, by decide +kernel, by decide +kernel, by decide +kernel, by decide +kernel, by decide +kernel⟩
  simp [demo, legal]

/-- **C251** is violated by a register that names a bank twice: adding it fails in an internal assertion, and yet it can be looked up afterwards,
though it is not counted. -/
theorem C251_twice_violated : (run [.add ⟨1, 0, 0, [1, 1]⟩]).2 = [.broken] ∧
    getRegister (run [.add ⟨1, 0, 0, [1, 1]⟩]).1 0 0 1 = some ⟨1, 0, 0, [1, 1]⟩ ∧
    (run [.add ⟨1, 0, 0, [1, 1]⟩]).1.numRegs = 0 := by decide +kernel

/-- **C252** is violated by the largest bank index: the number of banks asked for overflows to 0 and no bank is made. -/
theorem C252_min_bank_violated : (run [.minBank (2 ^ 32 - 1)]).2 = [.ok] ∧ getNumBanks (run [.minBank (2 ^ 32 - 1)]).1 = 1 := by
  decide +kernel

end Sparta.RegBank
