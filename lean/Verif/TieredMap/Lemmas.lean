import Verif.TieredMap.Spec
namespace Sparta.TieredMap

instance (p : Ptr) : Decidable (p = .null) :=
  match p with
  | .null => isTrue rfl
  | .node _ => isFalse (by simp)
  | .pair _ => isFalse (by simp)

/-- the shifts of `n` tiers -/
def shiftsOf (b : Nat) : Nat → List Nat
  | 0 => []
  | n + 1 => b * n :: shiftsOf b n

/-- the child a node has at a place -/
def childAt (l : List Ptr) (d : Nat) : Ptr := (l[d]?).getD .null

/-- lookup in a tree of `n` tiers -/
def G (b n k : Nat) (p : Ptr) : Option (Option Nat) := getLoop (2 ^ b - 1) k (shiftsOf b n) p

/-- a tree of `n` tiers -/
def WF : Nat → Ptr → Prop
  | 0, p => ∃ i, p = .pair i
  | n + 1, p => ∃ l, p = .node l ∧ ∀ d, childAt l d = .null ∨ WF n (childAt l d)

/-- the digit of a key used at a tier -/
def digit (b n k : Nat) : Nat := k / 2 ^ (b * n) % 2 ^ b

theorem digit_eq (b n k : Nat) : (k >>> (b * n)) &&& (2 ^ b - 1) = digit b n k := by
  rw [land_mask, Nat.shiftRight_eq_div_pow, digit]

theorem childAt_resize (l : List Ptr) (m d : Nat) : childAt (resize l m) d = childAt l d := by
  unfold childAt resize
  by_cases h : d < l.length
  · rw [List.getElem?_append_left h]
  · rw [List.getElem?_append_right (by omega), List.getElem?_replicate, List.getElem?_eq_none (l := l) (by omega)]
    split <;> rfl

theorem length_resize (l : List Ptr) (v : Nat) : v < (resize l (v + 1)).length := by
  simp [resize]; omega

theorem resize_get (l : List Ptr) (v : Nat) : (resize l (v + 1))[v]? = some (childAt l v) := by
  rw [← childAt_resize l (v + 1) v, childAt, List.getElem?_eq_getElem (length_resize l v)]
  rfl

theorem childAt_set (l : List Ptr) (v d : Nat) (p : Ptr) : childAt ((resize l (v + 1)).set v p) d = if d = v then p else childAt l d := by
  by_cases h : d = v
  · subst h
    rw [if_pos rfl, childAt, List.getElem?_set_self (length_resize l d)]
    rfl
  · rw [if_neg h, ← childAt_resize l (v + 1) d]
    unfold childAt
    rw [List.getElem?_set_ne (Ne.symm h)]

theorem G_node (b n k : Nat) (l : List Ptr) (hs : b * n < 64) :
    G b (n + 1) k (.node l) = if childAt l (digit b n k) = .null then some none else G b n k (childAt l (digit b n k)) := by
  unfold G
  rw [shiftsOf, getLoop, if_pos hs, digit_eq]
  unfold childAt
  rcases h : l[digit b n k]? with _ | p
  · simp
  · cases p <;> simp

theorem G_empty (b n k : Nat) (hs : b * n < 64) : G b (n + 1) k (.node []) = some none := by
  rw [G_node b n k [] hs]; rfl

theorem WF_ne_null {n : Nat} {p : Ptr} (h : WF n p) : p ≠ .null := by
  cases n with
  | zero => obtain ⟨i, rfl⟩ := h; simp
  | succ n => obtain ⟨l, rfl, _⟩ := h; simp

theorem mod_split (b n k : Nat) : k % 2 ^ (b * (n + 1)) = 2 ^ (b * n) * digit b n k + k % 2 ^ (b * n) := by
  rw [show b * (n + 1) = b * n + b by rw [Nat.mul_succ], Nat.pow_add, Nat.mod_mul, digit, Nat.add_comm]

theorem setLoop_spec (b k f n : Nat) (p : Ptr) (hw : WF (n + 1) p) (hs : b * n < 64) :
    ∃ p' i, setLoop (2 ^ b - 1) k f (shiftsOf b (n + 1)) p = some (p', i) ∧ WF (n + 1) p' ∧
      (G b (n + 1) k p = some none ∧ i = f ∨ G b (n + 1) k p = some (some i)) ∧
      G b (n + 1) k p' = some (some i) ∧
      ∀ k', k' % 2 ^ (b * (n + 1)) ≠ k % 2 ^ (b * (n + 1)) → G b (n + 1) k' p' = G b (n + 1) k' p := by
  induction n generalizing p with
  | zero =>
    obtain ⟨l, rfl, hl⟩ := hw
    rw [shiftsOf, shiftsOf, setLoop, if_pos hs]
    simp only [digit_eq, resize_get]
    rcases hl (digit b 0 k) with hd | ⟨i, hd⟩
    · rw [hd]
      refine ⟨.node ((resize l (digit b 0 k + 1)).set (digit b 0 k) (.pair f)), f, rfl, ⟨_, rfl, ?_⟩, Or.inl ⟨?_, rfl⟩, ?_, ?_⟩
      · intro d
        rw [childAt_set]
        split
        · exact Or.inr ⟨f, rfl⟩
        · exact hl d
      · rw [G_node b 0 k l hs, hd, if_pos rfl]
      · rw [G_node b 0 k _ hs, childAt_set, if_pos rfl, if_neg (by simp)]; rfl
      · intro k' hk'
        rw [mod_split, mod_split] at hk'
        have : digit b 0 k' ≠ digit b 0 k := by
          intro e; apply hk'; rw [e]; simp [Nat.mod_one]
        rw [G_node b 0 k' _ hs, G_node b 0 k' l hs, childAt_set, if_neg this]
    · rw [hd]
      refine ⟨.node (resize l (digit b 0 k + 1)), i, rfl, ⟨_, rfl, fun d => by rw [childAt_resize]; exact hl d⟩, Or.inr ?_, ?_, ?_⟩
      · rw [G_node b 0 k l hs, hd, if_neg (by simp)]; rfl
      · rw [G_node b 0 k _ hs, childAt_resize, hd, if_neg (by simp)]; rfl
      · intro k' _
        rw [G_node b 0 k' _ hs, G_node b 0 k' l hs, childAt_resize]
  | succ n ih =>
    obtain ⟨l, rfl, hl⟩ := hw
    have hs' : b * n < 64 := by rw [Nat.mul_succ] at hs; omega
    rw [shiftsOf, setLoop, if_pos hs]
    simp only [digit_eq, resize_get]
    have hsh : shiftsOf b (n + 1) = b * n :: shiftsOf b n := rfl
    rcases hl (digit b (n + 1) k) with hd | hd
    · obtain ⟨p', i, h1, h2, h3, h4, h5⟩ := ih (.node []) ⟨[], rfl, fun d => Or.inl rfl⟩ hs'
      rw [hd]
      refine ⟨.node ((resize l (digit b (n + 1) k + 1)).set (digit b (n + 1) k) p'), i, ?_, ⟨_, rfl, ?_⟩, ?_, ?_, ?_⟩
      · rw [hsh] at h1 ⊢; simp only [h1]
      · intro d
        rw [childAt_set]
        split
        · exact Or.inr h2
        · exact hl d
      · rw [G_empty b n k hs'] at h3
        rcases h3 with ⟨_, h3⟩ | h3
        · exact Or.inl ⟨by rw [G_node b (n + 1) k l hs, hd, if_pos rfl], h3⟩
        · cases h3
      · rw [G_node b (n + 1) k _ hs, childAt_set, if_pos rfl, if_neg (WF_ne_null h2), h4]
      · intro k' hk'
        rw [G_node b (n + 1) k' _ hs, G_node b (n + 1) k' l hs, childAt_set]
        by_cases hdd : digit b (n + 1) k' = digit b (n + 1) k
        · rw [if_pos hdd, if_neg (WF_ne_null h2), hdd, hd, if_pos rfl]
          rw [mod_split, mod_split b (n + 1) k, hdd] at hk'
          rw [h5 k' (by omega), G_empty b n k' hs']
        · rw [if_neg hdd]
    · obtain ⟨p', i, h1, h2, h3, h4, h5⟩ := ih _ hd hs'
      have hne := WF_ne_null hd
      refine ⟨.node ((resize l (digit b (n + 1) k + 1)).set (digit b (n + 1) k) p'), i, ?_, ⟨_, rfl, ?_⟩, ?_, ?_, ?_⟩
      · rw [hsh] at h1 ⊢
        cases hc : childAt l (digit b (n + 1) k) with
        | null => exact absurd hc hne
        | node l' => rw [hc] at h1; simp only [h1]
        | pair j => rw [hc] at h1; simp only [h1]
      · intro d
        rw [childAt_set]
        split
        · exact Or.inr h2
        · exact hl d
      · rw [G_node b (n + 1) k l hs, if_neg hne]; exact h3
      · rw [G_node b (n + 1) k _ hs, childAt_set, if_pos rfl, if_neg (WF_ne_null h2), h4]
      · intro k' hk'
        rw [G_node b (n + 1) k' _ hs, G_node b (n + 1) k' l hs, childAt_set]
        by_cases hdd : digit b (n + 1) k' = digit b (n + 1) k
        · rw [if_pos hdd, if_neg (WF_ne_null h2), hdd, if_neg hne]
          rw [mod_split, mod_split b (n + 1) k, hdd] at hk'
          rw [h5 k' (by omega)]
        · rw [if_neg hdd]

end Sparta.TieredMap
