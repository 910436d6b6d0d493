import Verif.Argos.Spec
/-! Bytes, numbers as text, and lines of text. -/
namespace Sparta.Argos

theorem length_le (n v : Nat) : (le n v).length = n := by
  induction n generalizing v with
  | zero => rfl
  | succ n ih => simp [le, ih]

theorem unle_le (n v : Nat) (h : v < 256 ^ n) : unle (le n v) = v := by
  induction n generalizing v with
  | zero => simp at h; simp [le, unle, h]
  | succ n ih =>
    have : v / 256 < 256 ^ n := by
      rw [Nat.pow_succ] at h
      exact Nat.div_lt_of_lt_mul (by omega)
    simp only [le, unle, ih _ this]
    omega

theorem word_le (n v : Nat) (b : List Nat) (h : v < 256 ^ n) : word (le n v ++ b) 0 n = v := by
  unfold word
  rw [List.drop_zero, List.take_append_of_le_length (by rw [length_le]; exact Nat.le_refl _), List.take_of_length_le (by rw [length_le]; exact Nat.le_refl _), unle_le n v h]

theorem word_skip (a b : List Nat) (k p n : Nat) (h : a.length = k) : word (a ++ b) (k + p) n = word b p n := by
  unfold word
  rw [← h, ← List.drop_drop, List.drop_left]

theorem drop_skip (a b : List Nat) (k : Nat) (h : a.length = k) : (a ++ b).drop k = b := by
  rw [← h, List.drop_left]

theorem drop_skip' (a b : List Nat) (k p : Nat) (h : a.length = k) : (a ++ b).drop (k + p) = b.drop p := by
  rw [← h, ← List.drop_drop, List.drop_left]

theorem take_skip (a b : List Nat) (k : Nat) (h : a.length = k) : (a ++ b).take k = a := by
  rw [← h, List.take_left]

/-- decimal digits -/
theorem dec_digits (n : Nat) : dec n ≠ [] ∧ (∀ c ∈ dec n, 48 ≤ c ∧ c ≤ 57) ∧
    (dec n).foldl (fun a c => 10 * a + (c - 48)) 0 = n := by
  unfold dec
  induction n using Nat.strongRecOn with
  | _ n ih =>
    unfold digits
    by_cases h : n < 8 + 2
    · rw [dif_pos h]
      have hd : digit n = 48 + n := by unfold digit; rw [if_pos (by omega)]
      refine ⟨by simp, ?_, ?_⟩
      · intro c hc; rw [List.mem_singleton] at hc; omega
      · simp [hd]
    · rw [dif_neg h]
      have hd : digit (n % (8 + 2)) = 48 + n % 10 := by
        unfold digit; rw [if_pos (Nat.mod_lt _ (by omega))]
      obtain ⟨_, h2, h3⟩ := ih (n / (8 + 2)) (Nat.div_lt_self (by omega) (by omega))
      refine ⟨by simp, ?_, ?_⟩
      · intro c hc
        rcases List.mem_append.mp hc with hc | hc
        · exact h2 c hc
        · rw [List.mem_singleton] at hc; omega
      · rw [List.foldl_append, h3, hd]
        simp only [List.foldl_cons, List.foldl_nil]
        omega

theorem undec_dec (n : Nat) : undec (dec n) = some n := by
  obtain ⟨h1, h2, h3⟩ := dec_digits n
  unfold undec
  rw [if_neg, h3]
  rintro (h | h)
  · exact h1 h
  · rw [List.any_eq_true] at h
    obtain ⟨c, hc, h⟩ := h
    have := h2 c hc
    simp only [Bool.or_eq_true, decide_eq_true_eq] at h
    omega

theorem dec_plain (n : Nat) : plainText (dec n) := by
  obtain ⟨h1, h2, _⟩ := dec_digits n
  refine ⟨h1, fun h => ?_, fun h => ?_⟩
  · have := h2 _ h; omega
  · have := h2 _ h; omega

theorem split_append (sep : Nat) (a b : Text) (h : sep ∉ a) : split sep (a ++ sep :: b) = a :: split sep b := by
  induction a with
  | nil => simp [split]
  | cons c a ih =>
    have hc : c ≠ sep := fun e => h (by rw [e]; exact List.mem_cons_self)
    have ha : sep ∉ a := fun e => h (List.mem_cons_of_mem _ e)
    rw [List.cons_append, split, if_neg hc, ih ha]

theorem split_single (sep : Nat) (a : Text) (h : sep ∉ a) : split sep a = [a] := by
  induction a with
  | nil => simp [split]
  | cons c a ih =>
    have hc : c ≠ sep := fun e => h (by rw [e]; exact List.mem_cons_self)
    have ha : sep ∉ a := fun e => h (List.mem_cons_of_mem _ e)
    rw [split, if_neg hc, ih ha]

theorem tokens_append (sep : Nat) (a b : Text) (h : sep ∉ a) (ha : a ≠ []) : tokens sep (a ++ sep :: b) = a :: tokens sep b := by
  unfold tokens
  rw [split_append sep a b h, List.filter_cons_of_pos]
  simp [ha]

theorem tokens_single (sep : Nat) (a : Text) (h : sep ∉ a) (ha : a ≠ []) : tokens sep a = [a] := by
  unfold tokens
  rw [split_single sep a h]
  simp [ha]

/-- tokens of a line -/
theorem tokens_joined (t : Text) (ts : List Text) (h : plainText t) (hs : ∀ x ∈ ts, plainText x) :
    tokens 58 (t ++ ts.flatMap (fun x => 58 :: x)) = t :: ts := by
  induction ts generalizing t with
  | nil => simp [tokens_single 58 t h.2.2 h.1]
  | cons x ts ih =>
    rw [List.flatMap_cons, List.cons_append, tokens_append 58 t _ h.2.2 h.1, ih x (hs x List.mem_cons_self) (fun y hy => hs y (List.mem_cons_of_mem _ hy))]

theorem no_newline (t : Text) (ts : List Text) (h : plainText t) (hs : ∀ x ∈ ts, plainText x) :
    10 ∉ t ++ ts.flatMap (fun x => 58 :: x) ∧ t ++ ts.flatMap (fun x => 58 :: x) ≠ [] := by
  refine ⟨fun hm => ?_, fun e => h.1 (List.append_eq_nil_iff.mp e).1⟩
  rcases List.mem_append.mp hm with hm | hm
  · exact h.2.1 hm
  · obtain ⟨x, hx, hm⟩ := List.mem_flatMap.mp hm
    rcases List.mem_cons.mp hm with e | hm
    · cases e
    · exact (hs x hx).2.1 hm

theorem tokens_lines {β : Type} (xs : List β) (g : β → Text) (h : ∀ x ∈ xs, 10 ∉ g x ∧ g x ≠ []) :
    tokens 10 (xs.flatMap (fun x => g x ++ [10])) = xs.map g := by
  induction xs with
  | nil => simp [tokens, split]
  | cons x xs ih =>
    have hx := h x List.mem_cons_self
    rw [List.flatMap_cons, List.append_assoc, List.singleton_append, tokens_append 10 _ _ hx.1 hx.2,
      ih (fun y hy => h y (List.mem_cons_of_mem _ hy)), List.map_cons]

theorem lookup_none {α γ : Type} [BEq α] [LawfulBEq α] (m : List (α × γ)) (a : α) (h : a ∉ m.map Prod.fst) : m.lookup a = none := by
  rw [List.lookup_eq_none_iff]
  intro p hp
  simp only [bne_iff_ne, ne_eq, beq_eq_false_iff_ne]
  intro e
  exact h (e ▸ List.mem_map_of_mem hp)

theorem lookup_mem {α γ : Type} [BEq α] [LawfulBEq α] (m : List (α × γ)) (a : α) (b : γ) (hn : (m.map Prod.fst).Nodup) (h : (a, b) ∈ m) :
    m.lookup a = some b := by
  induction m with
  | nil => cases h
  | cons p m ih =>
    obtain ⟨x, y⟩ := p
    rw [List.map_cons, List.nodup_cons] at hn
    rcases List.mem_cons.mp h with e | h
    · cases e
      simp
    · have : a ≠ x := fun e => hn.1 (by rw [← e]; exact List.mem_map.mpr ⟨(a, b), h, rfl⟩)
      rw [List.lookup_cons, show (a == x) = false from by simpa using this]
      exact ih hn.2 h

theorem forLines_build {α β γ : Type} [DecidableEq α] (f : List (α × γ) → List Text → Except Err (List (α × γ))) (g : β → Text)
    (key : β → α) (val : β → γ) (xs : List β) (acc : List (α × γ))
    (hf : ∀ m, ∀ x ∈ xs, f m (tokens 58 (g x)) = .ok (emplace m (key x) (val x))) (hn : (acc.map Prod.fst ++ xs.map key).Nodup) :
    forLines f acc (xs.map g) = .ok (acc ++ xs.map (fun x => (key x, val x))) := by
  induction xs generalizing acc with
  | nil => simp [forLines]
  | cons x xs ih =>
    rw [List.map_cons, forLines, hf acc x List.mem_cons_self]
    have hx : key x ∉ acc.map Prod.fst := by
      intro hm
      rw [List.nodup_append] at hn
      exact hn.2.2 _ hm _ (by simp) rfl
    have he : emplace acc (key x) (val x) = acc ++ [(key x, val x)] := by
      unfold emplace
      rw [lookup_none acc _ hx]
      rfl
    rw [he]
    dsimp only
    rw [ih (acc ++ [(key x, val x)]) (fun m y hy => hf m y (List.mem_cons_of_mem _ hy)) (by simpa using hn)]
    simp

end Sparta.Argos
