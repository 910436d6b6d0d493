import Verif.BHist.Model
import Verif.BHist.Bits
/-!
Theorems about `BasicHistogram` (C238, C239).
-/
namespace Sparta.BHist

/-- every value is less than the ones after it -/
def Strict (bs : List Int) : Prop := ∀ (i j : Nat) (a b : Int), i < j → bs[i]? = some a → bs[j]? = some b → a < b

/-- no value is greater than one after it -/
def Weak (bs : List Int) : Prop := ∀ (i j : Nat) (a b : Int), i ≤ j → bs[i]? = some a → bs[j]? = some b → a ≤ b

theorem sorted_weak : ∀ bs : List Int, sorted bs = true → Weak bs
  | [], _ => by intro i j a b _ h; cases h
  | [x], _ => by
    intro i j a b h h1 h2
    cases i with
    | succ i => cases h1
    | zero => cases j with
      | succ j => cases h2
      | zero => cases h1; cases h2; exact Int.le_refl _
  | x :: y :: l, hs => by
    simp only [sorted, Bool.and_eq_true, decide_eq_true_eq] at hs
    have ih := sorted_weak (y :: l) hs.2
    intro i j a b h h1 h2
    cases i with
    | zero => cases j with
      | zero => rw [h1] at h2; injection h2 with e; omega
      | succ j =>
        have e : x = a := Option.some.inj h1
        have := ih 0 j y b (Nat.zero_le _) rfl h2
        omega
    | succ i => cases j with
      | zero => omega
      | succ j => exact ih i j a b (by omega) h1 h2

theorem ctrName_inj {a b : Int} (h : ctrName a = ctrName b) : a = b := by
  unfold ctrName at h
  injection h with h1 h2
  have h1 := decide_eq_decide.1 h1
  omega

theorem no_clash : ∀ (ns : List (Bool × Nat)) (i j : Nat) (a b : Bool × Nat), clash ns = false → i < j → ns[i]? = some a → ns[j]? = some b → a ≠ b
  | [], i, _, _, _, _, _, h, _ => by cases h
  | n :: l, i, j, a, b, hc, hij, h1, h2 => by
    simp only [clash, Bool.or_eq_false_iff] at hc
    cases j with
    | zero => omega
    | succ j =>
      have h2 : l[j]? = some b := h2
      cases i with
      | zero =>
        have e : n = a := Option.some.inj h1
        subst e
        intro he
        subst he
        have := List.mem_of_getElem? h2
        rw [← List.contains_iff_mem, hc.1] at this
        cases this
      | succ i => exact no_clash l i j a b hc.2 (by omega) h1 h2

theorem make_spec {u : Bool} {bs : List Int} {h : Hist} (hm : make u bs = some h) : h = ⟨u, bs, bs.map fun _ => 0⟩ ∧ Strict bs := by
  unfold make at hm
  by_cases hs : sorted bs = true
  · rw [if_pos hs] at hm
    by_cases hc : clash (bs.map ctrName) = true
    · rw [if_pos hc] at hm; cases hm
    · rw [if_neg hc] at hm
      refine ⟨(Option.some.inj hm).symm, ?_⟩
      intro i j a b hij h1 h2
      have w := sorted_weak bs hs i j a b (by omega) h1 h2
      have n := no_clash (bs.map ctrName) i j (ctrName a) (ctrName b) (by simpa using hc) hij (by rw [List.getElem?_map, h1]; rfl)
        (by rw [List.getElem?_map, h2]; rfl)
      have : a ≠ b := fun e => n (by rw [e])
      omega
  · rw [if_neg hs] at hm; cases hm

theorem upper_le (v : Int) : ∀ bs : List Int, upperBound v bs ≤ bs.length
  | [] => Nat.le_refl _
  | b :: l => by
    unfold upperBound
    have := upper_le v l
    split <;> simp only [List.length_cons] <;> omega

theorem upper_below (v : Int) : ∀ (bs : List Int) (k : Nat) (b : Int), k < upperBound v bs → bs[k]? = some b → b ≤ v
  | [], k, b, _, h => by cases h
  | x :: l, k, b, hk, h => by
    unfold upperBound at hk
    by_cases hx : v < x
    · rw [if_pos hx] at hk; omega
    · rw [if_neg hx] at hk
      cases k with
      | zero => have e : x = b := Option.some.inj h; omega
      | succ k => exact upper_below v l k b (by omega) h

theorem upper_at (v : Int) : ∀ (bs : List Int) (b : Int), bs[upperBound v bs]? = some b → v < b
  | [], b, h => by cases h
  | x :: l, b, h => by
    unfold upperBound at h
    by_cases hx : v < x
    · rw [if_pos hx] at h
      have e : x = b := Option.some.inj h
      omega
    · rw [if_neg hx] at h
      exact upper_at v l b h

/-- the values counter `i` stands for: from its bucket value on, below the next one; the first counter also has all smaller ones, and the last one all
greater ones -/
def counts (bs : List Int) (i : Nat) (v : Int) : Bool :=
  (i == 0 || (bs[i]?).any (· ≤ v)) && (bs[i + 1]?).all (v < ·)

theorem counts_iff (bs : List Int) (hs : Strict bs) (i : Nat) (hi : i < bs.length) (v : Int) :
    counts bs i v = true ↔ i = upperBound v bs - 1 := by
  have hle := upper_le v bs
  have gi : bs[i]? = some bs[i] := List.getElem?_eq_getElem hi
  have lt : ∀ k b, bs[k]? = some b → upperBound v bs ≤ k → v < b := by
    intro k b hk hu
    have hk' : k < bs.length := (List.getElem?_eq_some_iff.1 hk).1
    have g : bs[upperBound v bs]? = some (bs[upperBound v bs]'(by omega)) := List.getElem?_eq_getElem _
    have := upper_at v bs _ g
    rcases Nat.lt_or_ge (upperBound v bs) k with h | h
    · have := hs _ _ _ _ h g hk; omega
    · have e : k = upperBound v bs := by omega
      subst e
      rw [g] at hk
      injection hk with e
      omega
  unfold counts
  rw [Bool.and_eq_true, Bool.or_eq_true, gi]
  constructor
  · rintro ⟨h1, h2⟩
    have a : upperBound v bs ≤ i + 1 := by
      rcases Nat.lt_or_ge (i + 1) (upperBound v bs) with h | h
      · have g : bs[i + 1]? = some (bs[i + 1]'(by omega)) := List.getElem?_eq_getElem _
        rw [g] at h2
        have h2 : v < bs[i + 1] := by simpa using h2
        have := upper_below v bs _ _ h g
        omega
      · exact h
    rcases h1 with h1 | h1
    · have : i = 0 := by simpa using h1
      omega
    · have h1 : bs[i] ≤ v := by simpa using h1
      have : i < upperBound v bs := by
        rcases Nat.lt_or_ge i (upperBound v bs) with h | h
        · exact h
        · have := lt i _ gi h; omega
      omega
  · intro h
    constructor
    · by_cases h0 : upperBound v bs = 0
      · left; simp; omega
      · right
        have := upper_below v bs i _ (by omega) gi
        simpa using this
    · cases g : bs[i + 1]? with
      | none => rfl
      | some b =>
        have := lt (i + 1) b g (by omega)
        simpa using this

/-- below the first bucket value -/
def below (bs : List Int) (v : Int) : Bool := (bs[0]?).any (v < ·)

theorem below_iff (bs : List Int) (h : bs ≠ []) (v : Int) : below bs v = true ↔ upperBound v bs = 0 := by
  cases bs with
  | nil => exact absurd rfl h
  | cons b l =>
    unfold upperBound below
    by_cases g : v < b
    · rw [if_pos g]; simp [g]
    · rw [if_neg g]; simp [g]

/-- C238: after any values were added, each counter holds the number of those that lie from its bucket value on and below the next one; the first counter
also has those below, the last one those above. With the assertion, values below the first bucket value throw and are not counted. -/
theorem C238_counts (u : Bool) (bs : List Int) (hb : bs ≠ []) (h : Hist) (hm : make u bs = some h) (vs : List Int) :
    (runOps add h vs).2 = vs.map (fun v => if u && below bs v then .threw else .done) ∧
    ∀ i, i < bs.length → (runOps add h vs).1.ctrs[i]? = some ((vs.countP fun v => counts bs i v && !(u && below bs v)) % 2 ^ 64) := by
  obtain ⟨rfl, hs⟩ := make_spec hm
  have gen : ∀ (vs : List Int) (c : List Nat) (f : Nat → Nat), c.length = bs.length → (∀ i, i < bs.length → c[i]? = some (f i % 2 ^ 64)) →
      (runOps add ⟨u, bs, c⟩ vs).2 = vs.map (fun v => if u && below bs v then .threw else .done) ∧
      ∀ i, i < bs.length → (runOps add ⟨u, bs, c⟩ vs).1.ctrs[i]? =
        some ((f i + vs.countP fun v => counts bs i v && !(u && below bs v)) % 2 ^ 64) := by
    intro vs
    induction vs with
    | nil => intro c f _ hc; exact ⟨rfl, hc⟩
    | cons v vs ih =>
      intro c f hl hc
      have hlen : 0 < bs.length := List.length_pos_iff.2 hb
      have hle := upper_le v bs
      by_cases ht : (u && below bs v) = true
      · have e : add ⟨u, bs, c⟩ v = (⟨u, bs, c⟩, .threw) := by
          rw [Bool.and_eq_true] at ht
          unfold add
          dsimp only
          rw [if_pos ((below_iff bs hb v).1 ht.2), if_pos ht.1]
        obtain ⟨i1, i2⟩ := ih c f hl hc
        constructor
        · show (add ⟨u, bs, c⟩ v).2 :: (runOps add (add ⟨u, bs, c⟩ v).1 vs).2 = _
          rw [e, List.map_cons, if_pos ht]
          exact congrArg _ i1
        · intro i hi
          show (runOps add (add ⟨u, bs, c⟩ v).1 vs).1.ctrs[i]? = _
          rw [e, List.countP_cons_of_neg (by rw [ht]; simp)]
          exact i2 i hi
      · have e : add ⟨u, bs, c⟩ v = (⟨u, bs, c.modify (upperBound v bs - 1) fun c => (c + 1) % 2 ^ 64⟩, .done) := by
          have hb' : ∀ k, k < bs.length → bump ⟨u, bs, c⟩ k = (⟨u, bs, c.modify k fun c => (c + 1) % 2 ^ 64⟩, .done) := by
            intro k hk
            unfold bump
            rw [if_pos (by rw [hl]; exact hk)]
          unfold add
          dsimp only
          by_cases h0 : upperBound v bs = 0
          · have : ¬u = true := fun g => ht (by rw [g, (below_iff bs hb v).2 h0]; rfl)
            rw [if_pos h0, if_neg this, h0]
            exact hb' 0 hlen
          · rw [if_neg h0]
            exact hb' _ (by omega)
        obtain ⟨i1, i2⟩ := ih (c.modify (upperBound v bs - 1) fun c => (c + 1) % 2 ^ 64) (fun i => if counts bs i v then f i + 1 else f i)
          (by rw [List.length_modify]; exact hl) (by
            intro i hi
            rw [List.getElem?_modify, hc i hi]
            show some (if upperBound v bs - 1 = i then (f i % 2 ^ 64 + 1) % 2 ^ 64 else f i % 2 ^ 64) = _
            by_cases g : counts bs i v = true
            · rw [if_pos g, if_pos ((counts_iff bs hs i hi v).1 g).symm]
              congr 1
              omega
            · rw [if_neg g, if_neg (fun (w : upperBound v bs - 1 = i) => g ((counts_iff bs hs i hi v).2 w.symm))])
        constructor
        · show (add ⟨u, bs, c⟩ v).2 :: (runOps add (add ⟨u, bs, c⟩ v).1 vs).2 = _
          rw [e, List.map_cons, if_neg ht]
          exact congrArg _ i1
        · intro i hi
          show (runOps add (add ⟨u, bs, c⟩ v).1 vs).1.ctrs[i]? = _
          rw [e]
          refine (i2 i hi).trans ?_
          rw [List.countP_cons]
          have hf : (u && below bs v) = false := by simpa using ht
          rw [hf, Bool.not_false, Bool.and_true]
          by_cases g : counts bs i v = true
          · rw [if_pos g, if_pos g]; congr 2; omega
          · rw [if_neg g, if_neg g]; rfl
  obtain ⟨g1, g2⟩ := gen vs (bs.map fun _ => 0) (fun _ => 0) (List.length_map _) (by
    intro i hi
    rw [List.getElem?_map, List.getElem?_eq_getElem hi]
    rfl)
  exact ⟨g1, fun i hi => by rw [g2 i hi, Nat.zero_add]⟩

example : make false [0, 10, 20] = some ⟨false, [0, 10, 20], [0, 0, 0]⟩ ∧
    (runOps add ⟨false, [0, 10, 20], [0, 0, 0]⟩ [-1, 1, 10, 11, 20, 21]).1.ctrs = [2, 2, 2] ∧
    (runOps add ⟨true, [0, 10, 20], [0, 0, 0]⟩ [-1, 1]).2 = [.threw, .done] := by decide +kernel

/-- C238: every value belongs to exactly one counter -/
theorem C238_one_counter (u : Bool) (bs : List Int) (hb : bs ≠ []) (h : Hist) (hm : make u bs = some h) (v : Int) :
    ∃ i, i < bs.length ∧ counts bs i v = true ∧ ∀ j, j < bs.length → counts bs j v = true → j = i := by
  obtain ⟨_, hs⟩ := make_spec hm
  have hlen : 0 < bs.length := List.length_pos_iff.2 hb
  have hle := upper_le v bs
  have hi : upperBound v bs - 1 < bs.length := by omega
  exact ⟨_, hi, (counts_iff bs hs _ hi v).2 rfl, fun j hj hc => (counts_iff bs hs j hj v).1 hc⟩

theorem strict_tail {x : Int} {l : List Int} (h : Strict (x :: l)) : Strict l :=
  fun i j a b hij h1 h2 => h (i + 1) (j + 1) a b (by omega) h1 h2

theorem strict_sorted : ∀ bs : List Int, Strict bs → sorted bs = true
  | [], _ => rfl
  | [_], _ => rfl
  | x :: y :: l, h => by
    have := h 0 1 x y (by omega) rfl rfl
    unfold sorted
    rw [strict_sorted (y :: l) (strict_tail h), Bool.and_true]
    exact decide_eq_true (by omega)

theorem strict_clash : ∀ bs : List Int, Strict bs → clash (bs.map ctrName) = false
  | [], _ => rfl
  | x :: l, h => by
    rw [List.map_cons]
    unfold clash
    rw [strict_clash l (strict_tail h), Bool.or_false, Bool.eq_false_iff]
    intro hc
    obtain ⟨y, hy, e⟩ := List.mem_map.1 (List.contains_iff_mem.1 hc)
    have e := ctrName_inj e
    subst e
    obtain ⟨k, hk⟩ := List.getElem?_of_mem hy
    have := h 0 (k + 1) y y (by omega) rfl hk
    omega

/-- C238: a histogram can be constructed exactly if the bucket values are sorted and none is repeated; its counters are 0 -/
theorem C238_make (u : Bool) (bs : List Int) :
    make u bs = if bs.Pairwise (· < ·) then some ⟨u, bs, bs.map fun _ => 0⟩ else none := by
  have key : bs.Pairwise (· < ·) ↔ Strict bs := by
    rw [List.pairwise_iff_getElem]
    constructor
    · intro h i j a b hij h1 h2
      obtain ⟨l1, e1⟩ := List.getElem?_eq_some_iff.1 h1
      obtain ⟨l2, e2⟩ := List.getElem?_eq_some_iff.1 h2
      have := h i j l1 l2 hij
      omega
    · intro h i j l1 l2 hij
      exact h i j _ _ hij (List.getElem?_eq_getElem l1) (List.getElem?_eq_getElem l2)
  by_cases h : bs.Pairwise (· < ·)
  · rw [if_pos h]
    unfold make
    rw [if_pos (strict_sorted bs (key.1 h)), strict_clash bs (key.1 h)]
    rfl
  · rw [if_neg h]
    cases hm : make u bs with
    | none => rfl
    | some q => exact absurd (key.2 (make_spec hm).2) h

example : make false [0, 0] = none ∧ make false [1, 0] = none ∧ (make false [-3, 3]).isSome := by decide +kernel

/-- C238, violated: a histogram without buckets can be constructed, and adding a value to it is undefined -/
theorem C238_no_buckets_violated : make false [] = some ⟨false, [], []⟩ ∧ (add ⟨false, [], []⟩ 5).2 = .undefined := by decide +kernel

/-- C239: counters hold what their descriptions say if all values are bucket values or below the first. Missing: other values, for which it is false. -/
theorem C239_described_partial (bs : List Int) (hb : bs ≠ []) (h : Hist) (hm : make false bs = some h) (vs : List Int)
    (hv : ∀ v ∈ vs, v ∈ bs ∨ below bs v = true) (i : Nat) (hi : i < bs.length) :
    (runOps add h vs).1.ctrs[i]? = some ((vs.countP (describes bs i)) % 2 ^ 64) := by
  obtain ⟨_, hs⟩ := make_spec hm
  rw [(C238_counts false bs hb h hm vs).2 i hi]
  congr 2
  apply List.countP_congr
  intro v hvm
  have hlen : 0 < bs.length := List.length_pos_iff.2 hb
  rw [Bool.false_and, Bool.not_false, Bool.and_true, counts_iff bs hs i hi v]
  have gi : bs[i]? = some bs[i] := List.getElem?_eq_getElem hi
  have d0 : describes bs i v = true ↔ (∀ k, i = k + 1 → ∀ b, bs[k]? = some b → b < v) ∧ v ≤ bs[i] := by
    unfold describes
    rw [gi]
    cases i with
    | zero => simp
    | succ i =>
      have g : bs[i]? = some (bs[i]'(by omega)) := List.getElem?_eq_getElem _
      dsimp only
      rw [g, Bool.and_eq_true]
      constructor
      · rintro ⟨a, b⟩
        have a : bs[i] < v := by simpa using a
        refine ⟨?_, by simpa using b⟩
        intro k hk b hb
        have : i = k := by omega
        subst this
        rw [g] at hb
        injection hb with hb
        omega
      · rintro ⟨a, b⟩
        have := a i rfl _ g
        exact ⟨by simpa using this, by simpa using b⟩
  rw [d0]
  rcases hv v hvm with hv | hv
  · obtain ⟨k, hk, ek⟩ := List.getElem_of_mem hv
    have gk : bs[k]? = some v := by rw [List.getElem?_eq_getElem hk, ek]
    have uk : upperBound v bs = k + 1 := by
      have hk' : k < upperBound v bs := by
        rcases Nat.lt_or_ge k (upperBound v bs) with h | h
        · exact h
        · have g : bs[upperBound v bs]? = some (bs[upperBound v bs]'(by omega)) := List.getElem?_eq_getElem _
          have := upper_at v bs _ g
          rcases Nat.lt_or_ge (upperBound v bs) k with h' | h'
          · have := hs _ _ _ _ h' g gk; omega
          · have e : upperBound v bs = k := by omega
            have := upper_at v bs v (by rw [e]; exact gk)
            omega
      rcases Nat.lt_or_ge (k + 1) (upperBound v bs) with h | h
      · have hle := upper_le v bs
        have g : bs[k + 1]? = some (bs[k + 1]'(by omega)) := List.getElem?_eq_getElem _
        have a := upper_below v bs _ _ h g
        have b := hs k (k + 1) _ _ (by omega) gk g
        omega
      · omega
    rw [uk, Nat.add_sub_cancel]
    constructor
    · intro e
      subst e
      refine ⟨?_, by rw [ek]; exact Int.le_refl _⟩
      intro j hj b hb
      exact hs j i b v (by omega) hb gk
    · rintro ⟨a, b⟩
      rcases Nat.lt_trichotomy i k with c | c | c
      · have := hs i k _ _ c gi gk; omega
      · exact c
      · have g : bs[i - 1]? = some (bs[i - 1]'(by omega)) := List.getElem?_eq_getElem _
        have a' := a (i - 1) (by omega) _ g
        rcases Nat.lt_or_ge k (i - 1) with d | d
        · have := hs k (i - 1) _ _ d gk g; omega
        · have e : k = i - 1 := by omega
          have h2 : v < v := by
            have := a (i - 1) (by omega) v (by rw [← e]; exact gk)
            exact this
          omega
  · have u0 := (below_iff bs hb v).1 hv
    have g0 : bs[0]? = some bs[0] := List.getElem?_eq_getElem hlen
    have lt0 : v < bs[0] := by
      unfold below at hv
      rw [g0] at hv
      simpa using hv
    rw [u0]
    constructor
    · intro e
      have e : i = 0 := by omega
      subst e
      exact ⟨fun k hk => by omega, by omega⟩
    · rintro ⟨a, _⟩
      cases i with
      | zero => rfl
      | succ i =>
        have g : bs[i]? = some (bs[i]'(by omega)) := List.getElem?_eq_getElem _
        have a' := a i rfl _ g
        cases i with
        | zero => omega
        | succ i => have := hs 0 (i + 1) _ _ (by omega) g0 g; omega

example : (∀ v ∈ ([-1, 10, 20] : List Int), v ∈ ([0, 10, 20] : List Int) ∨ below [0, 10, 20] v = true) ∧
    (runOps add ⟨false, [0, 10, 20], [0, 0, 0]⟩ [-1, 10, 20]).1.ctrs = [1, 1, 1] := by decide +kernel

/-- C239, violated: 1 is counted by the counter described as "less than or equal to 0", and not by the one described as "greater than 0 and less than or
equal to 10"; 10 is not counted with 1 as the class says -/
theorem C239_description_violated :
    (runOps add ⟨false, [0, 10, 20], [0, 0, 0]⟩ [1]).1.ctrs = [1, 0, 0] ∧
    describes [0, 10, 20] 0 1 = false ∧ describes [0, 10, 20] 1 1 = true ∧
    (runOps add ⟨false, [0, 10, 20], [0, 0, 0]⟩ [1, 10]).1.ctrs = [1, 1, 0] := by decide +kernel

end Sparta.BHist
