import Verif.Lexical.Model
import Verif.Lexical.Spec
namespace Sparta.Lexical

theorem mem_ws (c : Char) : c ∈ ws ↔ isSep c := by simp [ws, isSep]

theorem contains_ws (c : Char) : ws.contains c = decide (isSep c) := by
  rw [Bool.eq_iff_iff]; simp [mem_ws]

theorem digit_cases {c : Char} {d : Nat} (h : digit c = some d) :
    (c, d) ∈ [('0', 0), ('1', 1), ('2', 2), ('3', 3), ('4', 4), ('5', 5), ('6', 6), ('7', 7), ('8', 8), ('9', 9),
      ('a', 10), ('b', 11), ('c', 12), ('d', 13), ('e', 14), ('f', 15), ('A', 10), ('B', 11), ('C', 12), ('D', 13), ('E', 14), ('F', 15)] := by
  unfold digit at h
  split at h <;> first | (cases h; decide) | cases h

theorem digitVal_eq {c : Char} {d : Nat} (h : digit c = some d) : digitVal c = d := by
  have := digit_cases h
  simp only [List.mem_cons, List.not_mem_nil, or_false, Prod.mk.injEq] at this
  rcases this with ⟨rfl, rfl⟩ | ⟨rfl, rfl⟩ | ⟨rfl, rfl⟩ | ⟨rfl, rfl⟩ | ⟨rfl, rfl⟩ | ⟨rfl, rfl⟩ | ⟨rfl, rfl⟩ | ⟨rfl, rfl⟩ |
    ⟨rfl, rfl⟩ | ⟨rfl, rfl⟩ | ⟨rfl, rfl⟩ | ⟨rfl, rfl⟩ | ⟨rfl, rfl⟩ | ⟨rfl, rfl⟩ | ⟨rfl, rfl⟩ | ⟨rfl, rfl⟩ | ⟨rfl, rfl⟩ |
    ⟨rfl, rfl⟩ | ⟨rfl, rfl⟩ | ⟨rfl, rfl⟩ | ⟨rfl, rfl⟩ | ⟨rfl, rfl⟩ <;> decide

theorem isDigit_iff (c : Char) :
    (isDigit 10 c ↔ c ∈ ['0', '1', '2', '3', '4', '5', '6', '7', '8', '9']) ∧
    (isDigit 8 c ↔ c ∈ ['0', '1', '2', '3', '4', '5', '6', '7']) ∧
    (isDigit 2 c ↔ c ∈ ['0', '1']) ∧
    (isDigit 16 c ↔ c ∈ ['0', '1', '2', '3', '4', '5', '6', '7', '8', '9', 'a', 'b', 'c', 'd', 'e', 'f', 'A', 'B', 'C', 'D', 'E', 'F']) := by
  have key : ∀ (r : Nat) (l : List Char), (∀ x ∈ l, ∃ d, digit x = some d ∧ d < r) →
      (∀ p ∈ [('0', 0), ('1', 1), ('2', 2), ('3', 3), ('4', 4), ('5', 5), ('6', 6), ('7', 7), ('8', 8), ('9', 9),
      ('a', 10), ('b', 11), ('c', 12), ('d', 13), ('e', 14), ('f', 15), ('A', 10), ('B', 11), ('C', 12), ('D', 13), ('E', 14), ('F', 15)], p.2 < r → p.1 ∈ l) →
      (isDigit r c ↔ c ∈ l) := by
    intro r l h1 h2
    constructor
    · rintro ⟨d, hd, hr⟩
      exact h2 _ (digit_cases hd) hr
    · exact h1 c
  refine ⟨key _ _ ?_ (by decide), key _ _ ?_ (by decide), key _ _ ?_ (by decide), key _ _ ?_ (by decide)⟩ <;>
  · intro x hx
    simp only [List.mem_cons, List.not_mem_nil, or_false] at hx
    rcases hx with rfl | hx
    all_goals (repeat' (first | (rcases hx with rfl | hx) | subst hx)) <;> exact ⟨_, rfl, by decide⟩

theorem foldl_val (radix : Nat) (s : Str) (h : ∀ c ∈ s, ∃ d, digit c = some d) (a : Nat) :
    s.foldl (fun a c => a * radix + digitVal c) a = a * radix ^ s.length + val radix s := by
  induction s generalizing a with
  | nil => simp [val]
  | cons c r ih =>
    obtain ⟨d, hd⟩ := h c (List.mem_cons_self ..)
    rw [List.foldl_cons, ih (fun x hx => h x (List.mem_cons_of_mem _ hx)), digitVal_eq hd]
    simp only [val, hd, Option.getD_some, List.length_cons, Nat.pow_succ]
    rw [Nat.add_mul, Nat.mul_assoc, Nat.mul_comm radix]
    omega

theorem stoul_eq (radix : Nat) (s : Str) (h : ∀ c ∈ s, ∃ d, digit c = some d) (hv : val radix s < 2 ^ 64) : stoul s radix = some (val radix s) := by
  unfold stoul
  have := foldl_val radix s h 0
  rw [Nat.zero_mul, Nat.zero_add] at this
  rw [this]
  simp [hv]

theorem stoul_large (radix : Nat) (s : Str) (h : ∀ c ∈ s, ∃ d, digit c = some d) (hv : 2 ^ 64 ≤ val radix s) : stoul s radix = none := by
  unfold stoul
  have := foldl_val radix s h 0
  rw [Nat.zero_mul, Nat.zero_add] at this
  rw [this]
  simp; omega

theorem takeWhile_run {p : Char → Bool} {cs r : Str} (h : ∀ c ∈ cs, p c = true) (hr : ∀ c ∈ r.head?, p c = false) :
    (cs ++ r).takeWhile p = cs ∧ (cs ++ r).dropWhile p = r := by
  induction cs with
  | nil =>
    cases r with
    | nil => simp
    | cons x r => have := hr x rfl; simp [this]
  | cons c cs ih =>
    have := h c (List.mem_cons_self ..)
    have := ih (fun x hx => h x (List.mem_cons_of_mem _ hx))
    simp [*]

theorem filter_digitsOf (cs : Str) : cs.filter (!ws.contains ·) = digitsOf cs := by
  unfold digitsOf
  congr 1
  funext c
  rw [contains_ws]

/-- a run of digits and separators is taken as a whole -/
theorem parseNumeric_run {ds cs r : Str} (h : ∀ c ∈ cs, c ∈ ds ∨ isSep c) (hr : ∀ c ∈ r.head?, c ∉ ds ∧ ¬ isSep c) :
    parseNumeric (cs ++ r) ds = (digitsOf cs, r) := by
  have := takeWhile_run (p := fun c => ds.contains c || ws.contains c) (cs := cs) (r := r)
    (fun c hc => by rcases h c hc with h | h <;> simp [mem_ws, h])
    (fun c hc => by have := hr c hc; simp [mem_ws, this])
  unfold parseNumeric
  dsimp only
  rw [this.1, this.2, filter_digitsOf]

theorem parseNumeric_skip (s ds : Str) : parseNumeric (s.dropWhile (ws.contains ·)) ds = parseNumeric s ds := by
  induction s with
  | nil => rfl
  | cons c r ih =>
    by_cases h : ws.contains c = true
    · rw [List.dropWhile_cons_of_pos h, ih]
      have h : c ∈ ws := by simpa using h
      unfold parseNumeric
      simp [h]
    · rw [List.dropWhile_cons_of_neg h]

theorem expo_cases {c : Char} {e : Nat} (h : expo c = some e) :
    (c, e) ∈ [('k', 1), ('K', 1), ('m', 2), ('M', 2), ('g', 3), ('G', 3), ('b', 3), ('B', 3), ('t', 4), ('T', 4), ('p', 5), ('P', 5)] := by
  unfold expo at h
  split at h <;> first | (cases h; decide) | cases h

theorem unit_cases {u : Str} {m : Nat} (h : unitVal u = some m) :
    u = [] ∧ m = 1 ∨ (∃ c, u = [c] ∧ (c, m) ∈ [('n', 1), ('N', 1), ('k', 1000), ('K', 1000), ('m', 1000000), ('M', 1000000),
      ('g', 1000000000), ('G', 1000000000), ('b', 1000000000), ('B', 1000000000), ('t', 1000000000000), ('T', 1000000000000),
      ('p', 1000000000000000), ('P', 1000000000000000)]) ∨
    (∃ c i, u = [c, i] ∧ i ∈ ['i', 'I'] ∧ (c, m) ∈ [('k', 2 ^ 10), ('K', 2 ^ 10), ('m', 2 ^ 20), ('M', 2 ^ 20),
      ('g', 2 ^ 30), ('G', 2 ^ 30), ('b', 2 ^ 30), ('B', 2 ^ 30), ('t', 2 ^ 40), ('T', 2 ^ 40), ('p', 2 ^ 50), ('P', 2 ^ 50)]) := by
  unfold unitVal at h
  split at h
  · cases h; exact Or.inl ⟨rfl, rfl⟩
  · rename_i c
    right; left
    refine ⟨c, rfl, ?_⟩
    split at h
    · rename_i hc
      cases h
      rcases hc with rfl | rfl <;> decide
    · rw [Option.map_eq_some_iff] at h
      obtain ⟨e, he, rfl⟩ := h
      have := expo_cases he
      simp only [List.mem_cons, List.not_mem_nil, or_false, Prod.mk.injEq] at this
      rcases this with ⟨rfl, rfl⟩ | ⟨rfl, rfl⟩ | ⟨rfl, rfl⟩ | ⟨rfl, rfl⟩ | ⟨rfl, rfl⟩ | ⟨rfl, rfl⟩ | ⟨rfl, rfl⟩ | ⟨rfl, rfl⟩ |
        ⟨rfl, rfl⟩ | ⟨rfl, rfl⟩ | ⟨rfl, rfl⟩ | ⟨rfl, rfl⟩ <;> decide
  · rename_i c i
    right; right
    split at h
    · rename_i hi
      refine ⟨c, i, rfl, by simpa using hi, ?_⟩
      rw [Option.map_eq_some_iff] at h
      obtain ⟨e, he, rfl⟩ := h
      have := expo_cases he
      simp only [List.mem_cons, List.not_mem_nil, or_false, Prod.mk.injEq] at this
      rcases this with ⟨rfl, rfl⟩ | ⟨rfl, rfl⟩ | ⟨rfl, rfl⟩ | ⟨rfl, rfl⟩ | ⟨rfl, rfl⟩ | ⟨rfl, rfl⟩ | ⟨rfl, rfl⟩ | ⟨rfl, rfl⟩ |
        ⟨rfl, rfl⟩ | ⟨rfl, rfl⟩ | ⟨rfl, rfl⟩ | ⟨rfl, rfl⟩ <;> decide
    · cases h
  · cases h

theorem trySuffix_unit {u : Str} {m : Nat} (h : unitVal u = some m) (hu : u ≠ []) (r : Str) (hr : ∀ c ∈ r.head?, c ≠ 'i' ∧ c ≠ 'I') :
    trySuffix (u ++ r) = (m, r) := by
  rcases unit_cases h with ⟨rfl, _⟩ | ⟨c, rfl, hc⟩ | ⟨c, i, rfl, hi, hc⟩
  · exact absurd rfl hu
  · simp only [List.mem_cons, List.not_mem_nil, or_false, Prod.mk.injEq] at hc
    have hr1 : ∀ x : Str, ['i'].isPrefixOf r = false ∧ ['I'].isPrefixOf r = false := by
      intro _
      cases r with
      | nil => simp
      | cons a r =>
        have := hr a rfl
        simp [List.isPrefixOf, this.1.symm, this.2.symm]
    obtain ⟨k1, k2⟩ := hr1 []
    rcases hc with ⟨rfl, rfl⟩ | ⟨rfl, rfl⟩ | ⟨rfl, rfl⟩ | ⟨rfl, rfl⟩ | ⟨rfl, rfl⟩ | ⟨rfl, rfl⟩ | ⟨rfl, rfl⟩ | ⟨rfl, rfl⟩ |
        ⟨rfl, rfl⟩ | ⟨rfl, rfl⟩ | ⟨rfl, rfl⟩ | ⟨rfl, rfl⟩ | ⟨rfl, rfl⟩ | ⟨rfl, rfl⟩ <;>
      simp [trySuffix, suffixes, List.isPrefixOf, List.find?, k1, k2]
  · simp only [List.mem_cons, List.not_mem_nil, or_false, Prod.mk.injEq] at hc hi
    rcases hi with rfl | rfl <;>
    rcases hc with ⟨rfl, rfl⟩ | ⟨rfl, rfl⟩ | ⟨rfl, rfl⟩ | ⟨rfl, rfl⟩ | ⟨rfl, rfl⟩ | ⟨rfl, rfl⟩ | ⟨rfl, rfl⟩ | ⟨rfl, rfl⟩ |
        ⟨rfl, rfl⟩ | ⟨rfl, rfl⟩ | ⟨rfl, rfl⟩ | ⟨rfl, rfl⟩ <;>
      simp [trySuffix, suffixes, List.isPrefixOf, List.find?]

theorem digit10 {c : Char} (h : isDigit 10 c) : ∃ d, digit c = some d ∧ d < 10 ∧ (c.toNat + 2 ^ 64 - 48) % 2 ^ 64 = d ∧ (c ≠ '0' → 0 < d) := by
  obtain ⟨d, hd, hl⟩ := h
  refine ⟨d, hd, hl, ?_⟩
  have := digit_cases hd
  simp only [List.mem_cons, List.not_mem_nil, or_false, Prod.mk.injEq] at this
  rcases this with ⟨rfl, rfl⟩ | ⟨rfl, rfl⟩ | ⟨rfl, rfl⟩ | ⟨rfl, rfl⟩ | ⟨rfl, rfl⟩ | ⟨rfl, rfl⟩ | ⟨rfl, rfl⟩ | ⟨rfl, rfl⟩ |
    ⟨rfl, rfl⟩ | ⟨rfl, rfl⟩ | ⟨rfl, rfl⟩ | ⟨rfl, rfl⟩ | ⟨rfl, rfl⟩ | ⟨rfl, rfl⟩ | ⟨rfl, rfl⟩ | ⟨rfl, rfl⟩ | ⟨rfl, rfl⟩ |
    ⟨rfl, rfl⟩ | ⟨rfl, rfl⟩ | ⟨rfl, rfl⟩ | ⟨rfl, rfl⟩ | ⟨rfl, rfl⟩ <;> first | omega | decide

/-- the fraction, when every digit is an integer number of units -/
theorem fracLoop_eq (m q : Nat) (hm : m < 2 ^ 60) (fd : Str) (k v : Nat) (hd : ∀ c ∈ fd, isDigit 10 c ∧ c ≠ '0')
    (hk : k + fd.length ≤ 9) (hq : m = 10 ^ (k + fd.length) * q) (hq0 : 0 < q) (hv : v + val 10 fd * q < 2 ^ 64) :
    fracLoop m (10 ^ (k + 1)) v fd = .ok (v + val 10 fd * q) := by
  induction fd generalizing k v with
  | nil => simp [fracLoop, val]
  | cons c r ih =>
    obtain ⟨hc, hc0⟩ := hd c (List.mem_cons_self ..)
    obtain ⟨d, e1, e2, e3, e4⟩ := digit10 hc
    have e4 := e4 hc0
    have hl : k + 1 + r.length ≤ 9 := by simp at hk; omega
    have hq' : m = 10 ^ (k + 1 + r.length) * q := by
      rw [hq, show k + (c :: r).length = k + 1 + r.length by simp; omega]
    have hsplit : m = 10 ^ (k + 1) * (10 ^ r.length * q) := by
      rw [hq', Nat.pow_add, Nat.mul_assoc]
    have hval : val 10 (c :: r) * q = d * (10 ^ r.length * q) + val 10 r * q := by
      simp [val, e1, Nat.add_mul, Nat.mul_assoc]
    have hpos : 0 < 10 ^ (k + 1) := Nat.pow_pos (by omega)
    have hdm : d * m < 2 ^ 64 := by
      have : d * m ≤ 9 * m := Nat.mul_le_mul_right _ (by omega)
      exact Nat.lt_of_le_of_lt this (by clear hv hq hq' hsplit; omega)
    have hdm' : d * m = 10 ^ (k + 1) * (d * (10 ^ r.length * q)) := by
      rw [hsplit, Nat.mul_left_comm]
    have hge : 0 < d * (10 ^ r.length * q) := Nat.mul_pos e4 (Nat.mul_pos (Nat.pow_pos (by omega)) hq0)
    unfold fracLoop
    dsimp only
    rw [e3, if_pos e2, Nat.mod_eq_of_lt hdm]
    rw [if_neg (by
      rw [hdm']
      have : 10 ^ (k + 1) * 1 ≤ 10 ^ (k + 1) * (d * (10 ^ r.length * q)) := Nat.mul_le_mul_left _ hge
      omega), if_neg (by omega)]
    have hdiv : d * m / 10 ^ (k + 1) = d * (10 ^ r.length * q) := by
      rw [hdm', Nat.mul_div_cancel_left _ hpos]
    rw [hdiv]
    rw [hval] at hv
    rw [Nat.mod_eq_of_lt (by omega : v + d * (10 ^ r.length * q) < 2 ^ 64)]
    have hten : r ≠ [] → 10 ^ (k + 1) * 10 % 2 ^ 32 = 10 ^ (k + 1 + 1) := by
      intro hr
      have := List.length_pos_iff.mpr hr
      rw [← Nat.pow_succ]
      apply Nat.mod_eq_of_lt
      calc 10 ^ (k + 1 + 1) ≤ 10 ^ 9 := Nat.pow_le_pow_right (by omega) (by omega)
        _ < 2 ^ 32 := by decide
    by_cases hr : r = []
    · subst hr
      rw [hval]
      simp [fracLoop, val]
    · rw [hten hr, ih (k + 1) _ (fun x hx => hd x (List.mem_cons_of_mem _ hx)) hl hq' (by omega), hval, Nat.add_assoc]

theorem unit_lt {u : Str} {m : Nat} (h : unitVal u = some m) : 0 < m ∧ m < 2 ^ 60 := by
  rcases unit_cases h with ⟨rfl, rfl⟩ | ⟨c, rfl, hc⟩ | ⟨c, i, rfl, hi, hc⟩
  · decide
  · simp only [List.mem_cons, List.not_mem_nil, or_false, Prod.mk.injEq] at hc
    rcases hc with ⟨rfl, rfl⟩ | ⟨rfl, rfl⟩ | ⟨rfl, rfl⟩ | ⟨rfl, rfl⟩ | ⟨rfl, rfl⟩ | ⟨rfl, rfl⟩ | ⟨rfl, rfl⟩ | ⟨rfl, rfl⟩ |
        ⟨rfl, rfl⟩ | ⟨rfl, rfl⟩ | ⟨rfl, rfl⟩ | ⟨rfl, rfl⟩ | ⟨rfl, rfl⟩ | ⟨rfl, rfl⟩ <;> decide
  · simp only [List.mem_cons, List.not_mem_nil, or_false, Prod.mk.injEq] at hc
    rcases hc with ⟨rfl, rfl⟩ | ⟨rfl, rfl⟩ | ⟨rfl, rfl⟩ | ⟨rfl, rfl⟩ | ⟨rfl, rfl⟩ | ⟨rfl, rfl⟩ | ⟨rfl, rfl⟩ | ⟨rfl, rfl⟩ |
        ⟨rfl, rfl⟩ | ⟨rfl, rfl⟩ | ⟨rfl, rfl⟩ | ⟨rfl, rfl⟩ <;> decide

/-- the first character of a unit -/
theorem unit_head {u : Str} {m : Nat} (h : unitVal u = some m) : ∀ c ∈ u.head?, ¬ isSep c ∧ c ∉ decimalDigits ∧
    c ∉ ['0', '1', '2', '3', '4', '5', '6', '7'] ∧ c ∉ ['0', '1'] := by
  intro c hc
  rcases unit_cases h with ⟨rfl, rfl⟩ | ⟨x, rfl, hx⟩ | ⟨x, i, rfl, hi, hx⟩
  · cases hc
  · cases hc
    simp only [List.mem_cons, List.not_mem_nil, or_false, Prod.mk.injEq] at hx
    rcases hx with ⟨rfl, rfl⟩ | ⟨rfl, rfl⟩ | ⟨rfl, rfl⟩ | ⟨rfl, rfl⟩ | ⟨rfl, rfl⟩ | ⟨rfl, rfl⟩ | ⟨rfl, rfl⟩ | ⟨rfl, rfl⟩ |
        ⟨rfl, rfl⟩ | ⟨rfl, rfl⟩ | ⟨rfl, rfl⟩ | ⟨rfl, rfl⟩ | ⟨rfl, rfl⟩ | ⟨rfl, rfl⟩ <;> decide
  · cases hc
    simp only [List.mem_cons, List.not_mem_nil, or_false, Prod.mk.injEq] at hx
    rcases hx with ⟨rfl, rfl⟩ | ⟨rfl, rfl⟩ | ⟨rfl, rfl⟩ | ⟨rfl, rfl⟩ | ⟨rfl, rfl⟩ | ⟨rfl, rfl⟩ | ⟨rfl, rfl⟩ | ⟨rfl, rfl⟩ |
        ⟨rfl, rfl⟩ | ⟨rfl, rfl⟩ | ⟨rfl, rfl⟩ | ⟨rfl, rfl⟩ <;> decide

/-- the tail of `term` after the number has been cut out -/
theorem term_of {s : Str} {a : Bool} {radix : Nat} {num rest : Str}
    (hs : s.dropWhile (ws.contains ·) ≠ [])
    (hp : number (s.dropWhile (ws.contains ·)) a = (radix, num, rest)) (hn : num ≠ []) :
    term s a =
      if num.dropWhile (· ≠ '.') = ['.'] then .threw
      else
        match (if num.takeWhile (· ≠ '.') = [] then some 0 else stoul (num.takeWhile (· ≠ '.')) radix) with
        | none => .threw
        | some v =>
          if rest = [] then (if (num.dropWhile (· ≠ '.')).drop 1 ≠ [] then .threw else .ok (v, none))
          else
            match fracLoop (trySuffix rest).1 10 (v * (trySuffix rest).1 % 2 ^ 64) ((num.dropWhile (· ≠ '.')).drop 1) with
            | .ok v => .ok (v, some (trySuffix rest).2)
            | .threw => .threw
            | .ub => .ub := by
  unfold term
  dsimp only
  rw [if_neg hs, hp]
  dsimp only
  rw [if_neg hn]
  rfl

end Sparta.Lexical
