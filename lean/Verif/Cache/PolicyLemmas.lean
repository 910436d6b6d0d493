import Verif.Cache.Spec
/-! Lemmas about the replacement policies. -/
namespace Sparta.Cache

/-! ### the tree -/

theorem div_pow_succ (x j : Nat) : x / 2 ^ (j + 1) = x / 2 ^ j / 2 := by
  rw [Nat.pow_succ, Nat.div_div_eq_div_mul]

theorem div_pow_succ' (x j : Nat) : x / 2 ^ (j + 1) = x / 2 / 2 ^ j := by
  rw [Nat.pow_succ, Nat.mul_comm, Nat.div_div_eq_div_mul]

theorem bit_toNat (x : Nat) : (x % 2 == 1).toNat = x % 2 := by
  rcases Nat.mod_two_eq_zero_or_one x with h | h <;> simp [h]

theorem ascend_other (f : Bool → Bool) (i idx m : Nat) (bits : Nat → Bool) (h : ∀ j < i, m ≠ idx / 2 ^ (j + 1)) :
    ascend f i idx bits m = bits m := by
  induction i generalizing idx bits with
  | zero => rfl
  | succ i ih =>
    unfold ascend
    rw [ih]
    · apply upd_other
      have := h 0 (by omega)
      simpa using this
    · intro j hj hm
      apply h (j + 1) (by omega)
      rw [hm, div_pow_succ' idx (j + 1)]

theorem ascend_at (f : Bool → Bool) (i idx j : Nat) (bits : Nat → Bool) (hi : 2 ^ i ≤ idx) (hj : j < i) :
    ascend f i idx bits (idx / 2 ^ (j + 1)) = f (idx / 2 ^ j % 2 == 1) := by
  induction i generalizing idx bits j with
  | zero => omega
  | succ i ih =>
    unfold ascend
    have hi2 : 2 ^ i ≤ idx / 2 := by
      rw [Nat.le_div_iff_mul_le (by omega)]; rw [Nat.pow_succ] at hi; exact hi
    cases j with
    | zero =>
      rw [ascend_other]
      · simp [upd_same]
      · intro j' hj' h
        have hpos : 0 < idx / 2 := Nat.lt_of_lt_of_le (Nat.two_pow_pos i) hi2
        have h1 : idx / 2 / 2 ^ (j' + 1) < idx / 2 :=
          Nat.div_lt_self hpos (by have := Nat.one_lt_two_pow (n := j' + 1) (by omega); omega)
        rw [← h] at h1
        simp at h1
    | succ j =>
      rw [div_pow_succ' idx (j + 1), ih (idx / 2) j _ hi2 (by omega), div_pow_succ' idx j]

/-- which leaf a descent ends in -/
theorem descend_iff (f : Bool → Bool) (bits : Nat → Bool) (i m x : Nat) :
    descend f bits i m = x ↔ x / 2 ^ i = m ∧ ∀ j < i, f (bits (x / 2 ^ (j + 1))) = (x / 2 ^ j % 2 == 1) := by
  induction i generalizing m with
  | zero => simp [descend]; exact eq_comm
  | succ i ih =>
    unfold descend
    rw [ih]
    constructor
    · rintro ⟨h1, h2⟩
      have hm : x / 2 ^ (i + 1) = m := by
        rw [div_pow_succ, h1]
        cases f (bits m) <;> simp <;> omega
      refine ⟨hm, ?_⟩
      intro j hj
      by_cases hji : j = i
      · subst hji
        rw [hm, h1]
        cases f (bits m) <;> simp <;> omega
      · exact h2 j (by omega)
    · rintro ⟨h1, h2⟩
      refine ⟨?_, fun j hj => h2 j (by omega)⟩
      have := h2 i (by omega)
      rw [h1] at this
      rw [this, bit_toNat]
      rw [div_pow_succ] at h1
      omega

theorem leaf_top {L w : Nat} (hw : w < 2 ^ L) : (w + 2 ^ L) / 2 ^ L = 1 := by
  rw [Nat.add_div_right _ (Nat.two_pow_pos L), Nat.div_eq_of_lt hw]

theorem descend_leaf (f : Bool → Bool) (bits : Nat → Bool) (L : Nat) :
    2 ^ L ≤ descend f bits L 1 ∧ descend f bits L 1 < 2 ^ L + 2 ^ L := by
  have h := ((descend_iff f bits L 1 _).1 rfl).1
  have hp := Nat.two_pow_pos L
  have h1 := Nat.div_mul_le_self (descend f bits L 1) (2 ^ L)
  rw [h] at h1
  have h2 := Nat.lt_mul_of_div_lt (show descend f bits L 1 / 2 ^ L < 2 by omega) hp
  constructor <;> omega

/-- the way found by a descent is `w` iff all bits on the path of `w` point to it -/
theorem descend_way (f : Bool → Bool) (bits : Nat → Bool) (L w : Nat) (hw : w < 2 ^ L) :
    descend f bits L 1 - 2 ^ L = w ↔
      ∀ j < L, f (bits ((w + 2 ^ L) / 2 ^ (j + 1))) = ((w + 2 ^ L) / 2 ^ j % 2 == 1) := by
  have hl := descend_leaf f bits L
  constructor
  · intro h
    have : descend f bits L 1 = w + 2 ^ L := by omega
    exact ((descend_iff f bits L 1 _).1 this).2
  · intro h
    have := (descend_iff f bits L 1 (w + 2 ^ L)).2 ⟨leaf_top hw, h⟩
    omega

theorem node_range {L w j : Nat} (hw : w < 2 ^ L) (hj : j ≤ L) :
    2 ^ (L - j) ≤ (w + 2 ^ L) / 2 ^ j ∧ (w + 2 ^ L) / 2 ^ j < 2 ^ (L - j + 1) := by
  have e : 2 ^ L = 2 ^ (L - j) * 2 ^ j := by rw [← Nat.pow_add]; congr 1; omega
  have e' : 2 ^ (L - j + 1) * 2 ^ j = 2 ^ L + 2 ^ L := by rw [Nat.pow_succ]; rw [e]; grind
  constructor
  · rw [Nat.le_div_iff_mul_le (Nat.two_pow_pos j), ← e]; omega
  · rw [Nat.div_lt_iff_lt_mul (Nat.two_pow_pos j), e']; omega

theorem node_level {L v w i j : Nat} (hv : v < 2 ^ L) (hw : w < 2 ^ L) (hi : i ≤ L) (hj : j ≤ L)
    (h : (v + 2 ^ L) / 2 ^ i = (w + 2 ^ L) / 2 ^ j) : i = j := by
  have h1 := node_range hv hi
  have h2 := node_range hw hj
  rw [h] at h1
  have h3 : 2 ^ (L - i) < 2 ^ (L - j + 1) := by omega
  have h4 : 2 ^ (L - j) < 2 ^ (L - i + 1) := by omega
  have h5 := (Nat.pow_lt_pow_iff_right (a := 2) (by omega)).1 h3
  have h6 := (Nat.pow_lt_pow_iff_right (a := 2) (by omega)).1 h4
  omega

/-- a touch of `v` seen from the bit above level `j` of the path of `w` -/
theorem touch_bit (f : Bool → Bool) (L v w j : Nat) (bits : Nat → Bool) (hj : j < L) (hv : v < 2 ^ L) (hw : w < 2 ^ L) :
    ascend f L (v + 2 ^ L) bits ((w + 2 ^ L) / 2 ^ (j + 1)) =
      if (v + 2 ^ L) / 2 ^ (j + 1) = (w + 2 ^ L) / 2 ^ (j + 1) then f ((v + 2 ^ L) / 2 ^ j % 2 == 1)
      else bits ((w + 2 ^ L) / 2 ^ (j + 1)) := by
  split
  · rename_i h
    rw [← h, ascend_at _ _ _ _ _ (by omega) hj]
  · rename_i h
    apply ascend_other
    intro j' hj' he
    have := node_level hv hw (show j' + 1 ≤ L by omega) (show j + 1 ≤ L by omega) he.symm
    apply h
    rw [he, this]

/-- `w` is the victim (`f = id`) or the most recent way (`f = not`) right after the touch that says so -/
theorem touch_find (f g : Bool → Bool) (hfg : ∀ b, g (f b) = b) (L w : Nat) (bits : Nat → Bool) (hw : w < 2 ^ L) :
    descend g (ascend f L (w + 2 ^ L) bits) L 1 - 2 ^ L = w := by
  rw [descend_way _ _ _ _ hw]
  intro j hj
  rw [touch_bit _ _ _ _ _ _ hj hw hw, if_pos rfl, hfg]

theorem touches_bit (L w j : Nat) (vs : List Nat) (bits : Nat → Bool) (hj : j < L) (hw : w < 2 ^ L)
    (hvs : ∀ v ∈ vs, v < 2 ^ L) (h0 : bits ((w + 2 ^ L) / 2 ^ (j + 1)) ≠ ((w + 2 ^ L) / 2 ^ j % 2 == 1))
    (h1 : vs.foldl (plru L).touchMRU bits ((w + 2 ^ L) / 2 ^ (j + 1)) = ((w + 2 ^ L) / 2 ^ j % 2 == 1)) :
    ∃ v ∈ vs, (v + 2 ^ L) / 2 ^ (j + 1) = (w + 2 ^ L) / 2 ^ (j + 1) ∧ (v + 2 ^ L) / 2 ^ j ≠ (w + 2 ^ L) / 2 ^ j := by
  induction vs generalizing bits with
  | nil => exact absurd h1 h0
  | cons v vs ih =>
    have hv := hvs v (by simp)
    by_cases hc : (v + 2 ^ L) / 2 ^ (j + 1) = (w + 2 ^ L) / 2 ^ (j + 1) ∧ (v + 2 ^ L) / 2 ^ j ≠ (w + 2 ^ L) / 2 ^ j
    · exact ⟨v, by simp, hc⟩
    · have := ih ((plru L).touchMRU bits v) (fun x hx => hvs x (by simp [hx])) ?_ h1
      · obtain ⟨v', h2, h3⟩ := this; exact ⟨v', by simp [h2], h3⟩
      · show ascend not L (v + 2 ^ L) bits _ ≠ _
        rw [touch_bit _ _ _ _ _ _ hj hv hw]
        split
        · rename_i hs
          have : (v + 2 ^ L) / 2 ^ j = (w + 2 ^ L) / 2 ^ j := by
            apply Classical.byContradiction; intro hn; exact hc ⟨hs, hn⟩
          rw [this]; simp
        · exact h0

/-! ### ranks -/

theorem rankDescend_spec (bits : Nat → Bool) (rnk i m : Nat) : rankDescend bits rnk i m / 2 ^ i = m ∧
    ∀ j < i, (rnk >>> j % 2 == 1) =
      (bits (rankDescend bits rnk i m / 2 ^ (j + 1)) ^^ (rankDescend bits rnk i m / 2 ^ j % 2 == 1)) := by
  induction i generalizing m with
  | zero => simp [rankDescend]
  | succ i ih =>
    unfold rankDescend
    generalize hb : (bits m ^^ (rnk >>> i % 2 == 1)) = b
    obtain ⟨h1, h2⟩ := ih (2 * m + b.toNat)
    generalize rankDescend bits rnk i (2 * m + b.toNat) = x at h1 h2
    have hm : x / 2 ^ (i + 1) = m := by rw [div_pow_succ, h1]; cases b <;> simp <;> omega
    refine ⟨hm, ?_⟩
    intro j hj
    by_cases hji : j = i
    · subst hji
      have hx : (x / 2 ^ j % 2 == 1) = b := by rw [h1]; cases b <;> simp <;> omega
      rw [hm, hx, ← hb]
      cases bits m <;> simp
    · exact h2 j (by omega)

theorem eq_of_bits {a b L : Nat} (ha : a < 2 ^ L) (hb : b < 2 ^ L) (h : ∀ j < L, (a >>> j % 2 == 1) = (b >>> j % 2 == 1)) :
    a = b := by
  apply Nat.eq_of_testBit_eq
  intro j
  by_cases hj : j < L
  · have := h j hj
    simp only [Nat.testBit, Nat.and_comm _ (_ >>> _), Nat.and_one_is_mod] at *
    rcases Nat.mod_two_eq_zero_or_one (a >>> j) with h1 | h1 <;> rcases Nat.mod_two_eq_zero_or_one (b >>> j) with h2 | h2 <;>
      simp [h1, h2] at this ⊢
  · have hp : 2 ^ L ≤ 2 ^ j := Nat.pow_le_pow_right (by omega) (by omega)
    rw [Nat.testBit_lt_two_pow (by omega), Nat.testBit_lt_two_pow (by omega)]

theorem full_of_nodup {l : List Nat} {n : Nat} (hn : l.Nodup) (hl : l.length = n) (hr : ∀ x ∈ l, x < n) :
    ∀ w < n, w ∈ l := by
  intro w hw
  apply Classical.byContradiction
  intro hc
  have h1 : (w :: l).Nodup := List.nodup_cons.2 ⟨hc, hn⟩
  have h2 : (w :: l) ⊆ List.range n := by
    intro x hx
    rcases List.mem_cons.1 hx with rfl | hx
    · simpa using hw
    · simpa using hr x hx
  have := h1.length_le_of_subset h2
  simp at this; omega

/-! ### true LRU -/

theorem stamp_bound (h : List Touch) (w : Nat) : -(h.length : Int) ≤ stamp h w ∧ stamp h w ≤ h.length := by
  induction h with
  | nil => simp [stamp]
  | cons t ts ih =>
    unfold stamp
    simp only [List.length_cons]
    split
    · split <;> omega
    · omega

theorem lru_inv (n : Nat) (h : List Touch) (hw : ∀ t ∈ h, t.way < n) :
    (touchAll (trueLru n) h).Pairwise (Older h) ∧ (touchAll (trueLru n) h).Perm (List.range n) := by
  induction h with
  | nil =>
    refine ⟨?_, List.Perm.refl _⟩
    show (List.range n).Pairwise _
    exact List.Pairwise.imp (fun hab => Or.inr ⟨rfl, hab⟩) List.pairwise_lt_range
  | cons t ts ih =>
    obtain ⟨h1, h2⟩ := ih (fun x hx => hw x (by simp [hx]))
    have hmem : t.way ∈ touchAll (trueLru n) ts := h2.mem_iff.2 (by simpa using hw t (by simp))
    have hnd : (touchAll (trueLru n) ts).Nodup := h2.nodup_iff.2 List.nodup_range
    have hrest : ((touchAll (trueLru n) ts).erase t.way).Pairwise (Older (t :: ts)) := by
      have hne : ∀ x ∈ (touchAll (trueLru n) ts).erase t.way, t.way ≠ x := by
        intro x hx he; subst he
        exact (List.Nodup.mem_erase_iff hnd).1 hx |>.1 rfl
      have h3 := h1.sublist (List.erase_sublist (a := t.way) (l := touchAll (trueLru n) ts))
      refine List.Pairwise.imp_of_mem ?_ h3
      intro a b ha hb hab
      unfold Older stamp
      rw [if_neg (hne a ha), if_neg (hne b hb)]
      exact hab
    have hne : ∀ x ∈ (touchAll (trueLru n) ts).erase t.way, t.way ≠ x := by
      intro x hx he; subst he
      exact (List.Nodup.mem_erase_iff hnd).1 hx |>.1 rfl
    cases hm : t.mru with
    | true =>
      have e : touchAll (trueLru n) (t :: ts) = (touchAll (trueLru n) ts).erase t.way ++ [t.way] := by
        simp [touchAll, hm, trueLru]
      rw [e]
      constructor
      · rw [List.pairwise_append]
        refine ⟨hrest, by simp, ?_⟩
        intro a ha b hb
        simp at hb; subst hb
        left
        unfold stamp
        rw [if_neg (hne a ha), if_pos rfl, hm]
        have := (stamp_bound ts a).2
        simp; omega
      · exact List.perm_append_comm.trans ((List.perm_cons_erase hmem).symm.trans h2)
    | false =>
      have e : touchAll (trueLru n) (t :: ts) = t.way :: (touchAll (trueLru n) ts).erase t.way := by
        simp [touchAll, hm, trueLru]
      rw [e]
      constructor
      · rw [List.pairwise_cons]
        refine ⟨?_, hrest⟩
        intro b hb
        left
        unfold stamp
        rw [if_neg (hne b hb), if_pos rfl, hm]
        have := (stamp_bound ts b).1
        simp; omega
      · exact (List.perm_cons_erase hmem).symm.trans h2

/-! ### what a cache needs from a policy -/

theorem plru_legal (L : Nat) : (plru L).Legal (2 ^ L) := by
  refine ⟨fun _ => True, trivial, fun _ _ _ _ => ⟨trivial, trivial⟩, fun _ _ => trivial, ?_⟩
  intro bits _
  have := descend_leaf id bits L
  show descend id bits L 1 - 2 ^ L < 2 ^ L
  omega

theorem trueLru_legal (n : Nat) (hn : 0 < n) : (trueLru n).Legal n := by
  refine ⟨fun l => l.Perm (List.range n), List.Perm.refl _, ?_, fun _ h => h, ?_⟩
  · intro l w hl hw
    have hmem : w ∈ l := hl.mem_iff.2 (by simpa using hw)
    exact ⟨List.perm_append_comm.trans ((List.perm_cons_erase hmem).symm.trans hl),
      (List.perm_cons_erase hmem).symm.trans hl⟩
  · intro l hl
    show l.headD 0 < n
    cases l with
    | nil => simpa using hn
    | cons a l =>
      have : a ∈ List.range n := hl.mem_iff.1 (by simp)
      simpa using this

end Sparta.Cache
