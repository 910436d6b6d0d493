import Verif.Cache.PolicyLemmas
/-! Lemmas about decoding, sets and caches. -/
namespace Sparta.Cache

/-! ### decoding -/

theorem and_high (a l : Nat) (hl : l ≤ 64) (ha : a < 2 ^ 64) : a &&& (2 ^ 64 - 2 ^ l) = a - a % 2 ^ l := by
  have h1 : a - a % 2 ^ l = 2 ^ l * (a / 2 ^ l) := by have := Nat.div_add_mod a (2 ^ l); omega
  have h2 : 2 ^ 64 - 2 ^ l = 2 ^ l * (2 ^ (64 - l) - 1) := by
    rw [Nat.mul_sub, ← Nat.pow_add, Nat.mul_one]; congr 2; omega
  rw [h1, h2]
  apply Nat.eq_of_testBit_eq
  intro i
  rw [Nat.testBit_and, Nat.testBit_two_pow_mul, Nat.testBit_two_pow_mul, Nat.testBit_two_pow_sub_one,
    Nat.testBit_div_two_pow]
  by_cases hi : l ≤ i
  · by_cases hi2 : i < 64
    · have : i - l < 64 - l := by omega
      have e : l + (i - l) = i := by omega
      simp [hi, this, e]
    · have : a.testBit i = false := Nat.testBit_lt_two_pow (Nat.lt_of_lt_of_le ha (Nat.pow_le_pow_right (by omega) (by omega)))
      have e : i - l + l = i := by omega
      simp [this, e]
  · simp [hi]

structure Geo.Dims (g : Geo) (l s k : Nat) : Prop where
  line : g.line = 2 ^ l
  stride : g.stride = 2 ^ s
  sets : g.nSets = 2 ^ k
  lt : s + k < 64
  llt : l < 64

section
variable {g : Geo} {l s k : Nat} (D : g.Dims l s k)
include D

theorem Geo.Dims.tag (a : Nat) : g.tag a = a / 2 ^ s / 2 ^ k := by
  unfold Geo.tag
  rw [D.sets, D.stride, ← Nat.pow_add, Nat.log2_two_pow, Nat.shiftRight_eq_div_pow, Nat.div_div_eq_div_mul,
    ← Nat.pow_add, Nat.add_comm]

theorem Geo.Dims.idx (a : Nat) : g.idx a = a / 2 ^ s % 2 ^ k := by
  unfold Geo.idx
  rw [D.sets, D.stride, Nat.log2_two_pow, Nat.shiftRight_eq_div_pow, land_mask]

theorem Geo.Dims.off (a : Nat) : g.off a = a % 2 ^ l := by
  unfold Geo.off
  rw [D.line, land_mask]

theorem Geo.Dims.block {a : Nat} (ha : a < 2 ^ 64) : g.block a = a - a % 2 ^ l := by
  unfold Geo.block
  rw [D.line, and_high _ _ (Nat.le_of_lt D.llt) ha]

theorem Geo.Dims.item {a b : Nat} (h1 : g.tag a = g.tag b) (h2 : g.idx a = g.idx b) : a / 2 ^ s = b / 2 ^ s := by
  rw [D.tag, D.tag] at h1
  rw [D.idx, D.idx] at h2
  have e1 := Nat.div_add_mod (a / 2 ^ s) (2 ^ k)
  have e2 := Nat.div_add_mod (b / 2 ^ s) (2 ^ k)
  rw [h1, h2, e2] at e1
  exact e1.symm

end

theorem Geo.Ok.dims {g : Geo} (h : g.Ok) : ∃ l s k, g.Dims l s k ∧ l ≤ s := by
  obtain ⟨l, s, k, h1, h2, h3, h4, h5⟩ := h
  exact ⟨l, s, k, ⟨h1, h2, h3, h5, by omega⟩, h4⟩

theorem mod_pow_mod {a l s : Nat} (h : l ≤ s) : a % 2 ^ s % 2 ^ l = a % 2 ^ l :=
  Nat.mod_mod_of_dvd _ (Nat.pow_dvd_pow 2 h)

/-- facts about proper addresses, free of bit arithmetic -/
structure Geo.Nice (g : Geo) : Prop where
  pos : 0 < g.line
  key : ∀ a b, g.Proper a → g.Proper b → (g.block a = g.block b ↔ g.tag a = g.tag b ∧ g.idx a = g.idx b)
  split : ∀ a, g.Proper a → g.block a + g.off a = a ∧ g.off a < g.line ∧ g.off a = a % g.line
  proper : ∀ a, g.Proper a → g.Proper (g.block a) ∧ g.block (g.block a) = g.block a
  inside : ∀ a o, g.Proper a → o < g.line →
    g.Proper (g.block a + o) ∧ g.block (g.block a + o) = g.block a ∧ g.off (g.block a + o) = o

theorem Geo.Ok.nice {g : Geo} (h : g.Ok) : g.Nice := by
  obtain ⟨l, s, k, D, hls⟩ := h.dims
  have hpl := Nat.two_pow_pos l
  have hps := Nat.two_pow_pos s
  have low : ∀ a, g.Proper a → a % 2 ^ s = a % 2 ^ l := by
    intro a ha
    have h1 := ha.2
    rw [D.stride, D.line] at h1
    rw [← mod_pow_mod hls, Nat.mod_eq_of_lt h1]
  have blk : ∀ a, g.Proper a → g.block a = 2 ^ s * (a / 2 ^ s) := by
    intro a ha
    rw [D.block ha.1, ← low a ha]
    have := Nat.div_add_mod a (2 ^ s); omega
  have hle : 2 ^ l ≤ 2 ^ s := Nat.pow_le_pow_right (by omega) hls
  have inside : ∀ a o, g.Proper a → o < g.line →
    g.Proper (g.block a + o) ∧ g.block (g.block a + o) = g.block a ∧ g.off (g.block a + o) = o := by
    intro a o ha ho
    rw [D.line] at ho
    have hb := blk a ha
    have hmod : (g.block a + o) % 2 ^ s = o := by
      rw [hb, Nat.mul_add_mod, Nat.mod_eq_of_lt (by omega)]
    have hdiv : (g.block a + o) / 2 ^ s = a / 2 ^ s := by
      rw [hb, Nat.mul_add_div hps, Nat.div_eq_of_lt (show o < 2 ^ s by omega)]; rfl
    have hlt : g.block a + o < 2 ^ 64 := by
      have h64 : 2 ^ 64 = 2 ^ s * 2 ^ (64 - s) := by
        rw [← Nat.pow_add]; congr 1; have := D.lt; omega
      have h2 : a / 2 ^ s < 2 ^ (64 - s) := by
        rw [Nat.div_lt_iff_lt_mul hps, Nat.mul_comm, ← h64]; exact ha.1
      have h3 : 2 ^ s * (a / 2 ^ s + 1) ≤ 2 ^ s * 2 ^ (64 - s) := Nat.mul_le_mul_left _ h2
      rw [Nat.mul_add] at h3
      rw [h64, hb]; omega
    have hP : g.Proper (g.block a + o) := ⟨hlt, by rw [D.stride, hmod, D.line]; exact ho⟩
    refine ⟨hP, ?_, ?_⟩
    · rw [blk _ hP, hdiv, ← hb]
    · rw [D.off, ← low _ hP, hmod]
  refine ⟨by rw [D.line]; exact hpl, ?_, ?_, ?_, inside⟩
  · intro a b ha hb
    rw [blk a ha, blk b hb]
    constructor
    · intro h
      have : a / 2 ^ s = b / 2 ^ s := Nat.eq_of_mul_eq_mul_left hps h
      rw [D.tag, D.tag, D.idx, D.idx, this]; simp
    · rintro ⟨h1, h2⟩
      rw [D.item h1 h2]
  · intro a ha
    rw [D.off, D.line, D.block ha.1]
    refine ⟨?_, Nat.mod_lt _ hpl, rfl⟩
    have := Nat.mod_le a (2 ^ l); omega
  · intro a ha
    have := inside a 0 ha (by rw [D.line]; exact hpl)
    exact ⟨this.1, this.2.1⟩

/-! ### lookups -/

theorem CSet.find_some {σ} {s : CSet σ} {n t w : Nat} (h : s.find n t = some w) :
    w < n ∧ (s.ways w).valid = true ∧ (s.ways w).tag = t := by
  have h1 := List.mem_of_find?_eq_some h
  have h2 := List.find?_some h
  simp at h1 h2
  exact ⟨h1, h2⟩

theorem CSet.find_none {σ} {s : CSet σ} {n t : Nat} (h : s.find n t = none) (w : Nat) (hw : w < n)
    (hv : (s.ways w).valid = true) : (s.ways w).tag ≠ t := by
  have := List.find?_eq_none.1 h w (by simpa using hw)
  intro he
  simp [hv, he] at this

theorem CSet.find_isSome {σ} {s : CSet σ} {n t : Nat} : (s.find n t).isSome = true ↔
    ∃ w < n, (s.ways w).valid = true ∧ (s.ways w).tag = t := by
  cases h : s.find n t with
  | none =>
    simp only [Option.isSome_none, Bool.false_eq_true, false_iff]
    rintro ⟨w, h1, h2, h3⟩
    exact CSet.find_none h w h1 h2 h3
  | some w => simp only [Option.isSome_some, true_iff]; exact ⟨w, CSet.find_some h⟩

theorem findColdFrom_spec {σ} (s : CSet σ) (t : Nat) (l : List Nat) (cold : Bool) : s.findColdFrom t l cold =
    (l.find? (fun i => (s.ways i).valid && (s.ways i).tag == t),
      if (l.find? (fun i => (s.ways i).valid && (s.ways i).tag == t)).isSome then false
      else cold || l.any (fun i => !(s.ways i).valid)) := by
  induction l generalizing cold with
  | nil => simp [CSet.findColdFrom]
  | cons i l ih =>
    unfold CSet.findColdFrom
    cases hv : (s.ways i).valid with
    | false => simp [hv, ih]
    | true =>
      cases ht : (s.ways i).tag == t with
      | true => simp [hv, ht]
      | false => simp [hv, ht, ih]

theorem findInvalid_spec {σ} (s : CSet σ) (n : Nat) :
    (s.findInvalid n < n ∧ (s.ways (s.findInvalid n)).valid = false) ∨
    (s.findInvalid n = n ∧ ∀ w < n, (s.ways w).valid = true) := by
  unfold CSet.findInvalid
  cases h : (List.range n).find? (fun i => !(s.ways i).valid) with
  | none =>
    right
    refine ⟨rfl, fun w hw => ?_⟩
    have := List.find?_eq_none.1 h w (by simpa using hw)
    simpa using this
  | some i =>
    left
    have h1 := List.mem_of_find?_eq_some h
    have h2 := List.find?_some h
    simp at h1 h2
    exact ⟨h1, h2⟩

/-! ### lines -/

def Cache.at' {σ} (c : Cache σ) (s w : Nat) : Line := (c.sets s).ways w

/-- one line changed -/
def setAt (f : Nat → Nat → Line) (s w : Nat) (l : Line) : Nat → Nat → Line :=
  fun s' w' => if s' = s ∧ w' = w then l else f s' w'

theorem setAt_same (f : Nat → Nat → Line) (s w : Nat) (l : Line) : setAt f s w l s w = l := by simp [setAt]
theorem setAt_other (f : Nat → Nat → Line) {s w s' w' : Nat} (l : Line) (h : ¬ (s' = s ∧ w' = w)) :
    setAt f s w l s' w' = f s' w' := if_neg h

theorem at_setLine {σ} (c : Cache σ) (s w : Nat) (l : Line) : (c.setLine s w l).at' = setAt c.at' s w l := by
  funext s' w'
  unfold Cache.at' Cache.setLine setAt
  simp only
  by_cases h : s' = s
  · subst h
    rw [upd_same]
    by_cases h' : w' = w
    · subst h'; simp
    · simp [upd_other _ _ h', h']
  · rw [upd_other _ _ h]; simp [h]

theorem at_touchMRU {σ} (p : Policy σ) (c : Cache σ) (s w : Nat) : (c.touchMRU p s w).at' = c.at' := by
  funext s' w'
  unfold Cache.at' Cache.touchMRU
  simp only
  by_cases h : s' = s
  · subst h; rw [upd_same]
  · rw [upd_other _ _ h]

theorem at_touchLRU {σ} (p : Policy σ) (c : Cache σ) (s w : Nat) : (c.touchLRU p s w).at' = c.at' := by
  funext s' w'
  unfold Cache.at' Cache.touchLRU
  simp only
  by_cases h : s' = s
  · subst h; rw [upd_same]
  · rw [upd_other _ _ h]

/-- the policy states stay inside the policy's invariant -/
def Reps {σ} (P : σ → Prop) (c : Cache σ) : Prop := ∀ s, P (c.sets s).rep

theorem Reps.setLine {σ} {P : σ → Prop} {c : Cache σ} (h : Reps P c) (s w : Nat) (l : Line) : Reps P (c.setLine s w l) := by
  intro s'
  unfold Cache.setLine
  by_cases hs : s' = s
  · subst hs; simp only [upd_same]; exact h s'
  · simp only [upd_other _ _ hs]; exact h s'

theorem Reps.touchMRU {σ} {P : σ → Prop} {c : Cache σ} {p : Policy σ} {n : Nat}
    (hp : ∀ s w, P s → w < n → P (p.touchMRU s w) ∧ P (p.touchLRU s w)) (h : Reps P c) (s w : Nat) (hw : w < n) :
    Reps P (c.touchMRU p s w) := by
  intro s'
  unfold Cache.touchMRU
  by_cases hs : s' = s
  · subst hs; simp only [upd_same]; exact (hp _ _ (h s') hw).1
  · simp only [upd_other _ _ hs]; exact h s'

theorem Reps.touchLRU {σ} {P : σ → Prop} {c : Cache σ} {p : Policy σ} {n : Nat}
    (hp : ∀ s w, P s → w < n → P (p.touchMRU s w) ∧ P (p.touchLRU s w)) (h : Reps P c) (s w : Nat) (hw : w < n) :
    Reps P (c.touchLRU p s w) := by
  intro s'
  unfold Cache.touchLRU
  by_cases hs : s' = s
  · subst hs; simp only [upd_same]; exact (hp _ _ (h s') hw).2
  · simp only [upd_other _ _ hs]; exact h s'

/-- valid lines carry the block address of a proper address that belongs to their set, no block twice -/
structure LInv (g : Geo) (f : Nat → Nat → Line) : Prop where
  line : ∀ s w, w < g.nWays → (f s w).valid = true → g.Proper (f s w).addr ∧ g.block (f s w).addr = (f s w).addr ∧
    (f s w).tag = g.tag (f s w).addr ∧ g.idx (f s w).addr = s
  uniq : ∀ s w w', w < g.nWays → w' < g.nWays → (f s w).valid = true → (f s w').valid = true →
    (f s w).tag = (f s w').tag → w = w'

/-- the block of `a` is in the cache -/
def Has (g : Geo) (f : Nat → Nat → Line) (b : Nat) : Prop := ∃ s w, w < g.nWays ∧ (f s w).valid = true ∧ (f s w).addr = b

section
variable {g : Geo} (N : g.Nice) {f : Nat → Nat → Line} (I : LInv g f)
include N I

theorem LInv.has_iff {a : Nat} (ha : g.Proper a) :
    Has g f (g.block a) ↔ ∃ w < g.nWays, (f (g.idx a) w).valid = true ∧ (f (g.idx a) w).tag = g.tag a := by
  constructor
  · rintro ⟨s, w, h1, h2, h3⟩
    obtain ⟨i1, i2, i3, i4⟩ := I.line s w h1 h2
    have := (N.key _ _ i1 ha).1 (by rw [i2, h3])
    rw [i4] at this
    rw [← this.2]
    exact ⟨w, h1, h2, by rw [i3, this.1]⟩
  · rintro ⟨w, h1, h2, h3⟩
    obtain ⟨i1, i2, i3, i4⟩ := I.line _ w h1 h2
    refine ⟨g.idx a, w, h1, h2, ?_⟩
    rw [← i2]
    exact (N.key _ _ i1 ha).2 ⟨by rw [← i3, h3], i4⟩

theorem LInv.addr_inj {s w s' w' : Nat} (hw : w < g.nWays) (hw' : w' < g.nWays) (hv : (f s w).valid = true)
    (hv' : (f s' w').valid = true) (he : (f s w).addr = (f s' w').addr) : s = s' ∧ w = w' := by
  obtain ⟨i1, i2, i3, i4⟩ := I.line s w hw hv
  obtain ⟨j1, j2, j3, j4⟩ := I.line s' w' hw' hv'
  have hs : s = s' := by rw [← i4, ← j4, he]
  subst hs
  exact ⟨rfl, I.uniq s w w' hw hw' hv hv' (by rw [i3, j3, he])⟩

/-- put a block that is not there into a line -/
theorem LInv.put {a : Nat} (ha : g.Proper a) (hm : ¬ Has g f (g.block a)) (w : Nat) (l : Line)
    (h1 : l.addr = g.block a) (h2 : l.tag = g.tag a) : LInv g (setAt f (g.idx a) w l) := by
  have hb := N.proper a ha
  have hk := (N.key _ _ hb.1 ha).1 hb.2
  rw [I.has_iff N ha] at hm
  constructor
  · intro s' w' hw' hv
    by_cases h : s' = g.idx a ∧ w' = w
    · obtain ⟨rfl, rfl⟩ := h
      rw [setAt_same, h1, h2]
      exact ⟨hb.1, hb.2, hk.1.symm, hk.2⟩
    · rw [setAt_other _ _ h] at hv ⊢
      exact I.line s' w' hw' hv
  · intro s' w1 w2 hw1 hw2 hv1 hv2 ht
    by_cases e1 : s' = g.idx a ∧ w1 = w <;> by_cases e2 : s' = g.idx a ∧ w2 = w
    · rw [e1.2, e2.2]
    · exfalso
      obtain ⟨rfl, rfl⟩ := e1
      rw [setAt_same, setAt_other _ _ e2, h2] at ht
      rw [setAt_other _ _ e2] at hv2
      exact hm ⟨w2, hw2, hv2, ht.symm⟩
    · exfalso
      obtain ⟨rfl, rfl⟩ := e2
      rw [setAt_same, setAt_other _ _ e1, h2] at ht
      rw [setAt_other _ _ e1] at hv1
      exact hm ⟨w1, hw1, hv1, ht⟩
    · rw [setAt_other _ _ e1, setAt_other _ _ e2] at ht
      rw [setAt_other _ _ e1] at hv1
      rw [setAt_other _ _ e2] at hv2
      exact I.uniq s' w1 w2 hw1 hw2 hv1 hv2 ht

/-- what is in the cache after that -/
theorem LInv.has_put {a : Nat} (w : Nat) (hw : w < g.nWays) (l : Line) (h1 : l.addr = g.block a) (h3 : l.valid = true) (b : Nat) :
    Has g (setAt f (g.idx a) w l) b ↔ b = g.block a ∨
      (Has g f b ∧ ¬ ((f (g.idx a) w).valid = true ∧ (f (g.idx a) w).addr = b)) := by
  constructor
  · rintro ⟨s, w', e1, e2, e3⟩
    by_cases h : s = g.idx a ∧ w' = w
    · obtain ⟨rfl, rfl⟩ := h
      rw [setAt_same] at e3
      left; rw [← e3, h1]
    · rw [setAt_other _ _ h] at e2 e3
      right
      refine ⟨⟨s, w', e1, e2, e3⟩, ?_⟩
      rintro ⟨k1, k2⟩
      exact h (I.addr_inj N e1 hw e2 k1 (by rw [e3, k2]))
  · rintro (rfl | ⟨⟨s, w', e1, e2, e3⟩, hn⟩)
    · exact ⟨g.idx a, w, hw, by rw [setAt_same]; exact ⟨h3, h1⟩⟩
    · have h : ¬ (s = g.idx a ∧ w' = w) := by rintro ⟨rfl, rfl⟩; exact hn ⟨e2, e3⟩
      exact ⟨s, w', e1, by rw [setAt_other _ _ h]; exact ⟨e2, e3⟩⟩

/-- take a line out -/
theorem LInv.drop (s w : Nat) (l : Line) (h : l.valid = false) : LInv g (setAt f s w l) := by
  constructor
  · intro s' w' hw' hv
    by_cases h' : s' = s ∧ w' = w
    · obtain ⟨rfl, rfl⟩ := h'; rw [setAt_same, h] at hv; cases hv
    · rw [setAt_other _ _ h'] at hv ⊢
      exact I.line s' w' hw' hv
  · intro s' w1 w2 hw1 hw2 hv1 hv2 ht
    by_cases e1 : s' = s ∧ w1 = w
    · obtain ⟨rfl, rfl⟩ := e1; rw [setAt_same, h] at hv1; cases hv1
    · by_cases e2 : s' = s ∧ w2 = w
      · obtain ⟨rfl, rfl⟩ := e2; rw [setAt_same, h] at hv2; cases hv2
      · rw [setAt_other _ _ e1, setAt_other _ _ e2] at ht
        rw [setAt_other _ _ e1] at hv1
        rw [setAt_other _ _ e2] at hv2
        exact I.uniq s' w1 w2 hw1 hw2 hv1 hv2 ht

theorem LInv.has_drop (s w : Nat) (hw : w < g.nWays) (l : Line) (h : l.valid = false) (hv : (f s w).valid = true) (b : Nat) :
    Has g (setAt f s w l) b ↔ Has g f b ∧ b ≠ (f s w).addr := by
  constructor
  · rintro ⟨s', w', e1, e2, e3⟩
    by_cases h' : s' = s ∧ w' = w
    · obtain ⟨rfl, rfl⟩ := h'; rw [setAt_same, h] at e2; cases e2
    · rw [setAt_other _ _ h'] at e2 e3
      refine ⟨⟨s', w', e1, e2, e3⟩, ?_⟩
      intro hb
      exact h' (I.addr_inj N e1 hw e2 hv (by rw [e3, hb]))
  · rintro ⟨⟨s', w', e1, e2, e3⟩, hn⟩
    have h' : ¬ (s' = s ∧ w' = w) := by rintro ⟨rfl, rfl⟩; exact hn e3.symm
    exact ⟨s', w', e1, by rw [setAt_other _ _ h']; exact ⟨e2, e3⟩⟩

omit N in
/-- change only the data and flags of a line -/
theorem LInv.same (s w : Nat) (l : Line) (h1 : l.valid = (f s w).valid) (h2 : l.addr = (f s w).addr)
    (h3 : l.tag = (f s w).tag) : LInv g (setAt f s w l) ∧ ∀ b, Has g (setAt f s w l) b ↔ Has g f b := by
  have e : ∀ s' w', (setAt f s w l s' w').valid = (f s' w').valid ∧ (setAt f s w l s' w').addr = (f s' w').addr ∧
      (setAt f s w l s' w').tag = (f s' w').tag := by
    intro s' w'
    by_cases h' : s' = s ∧ w' = w
    · obtain ⟨rfl, rfl⟩ := h'; rw [setAt_same]; exact ⟨h1, h2, h3⟩
    · rw [setAt_other _ _ h']; exact ⟨rfl, rfl, rfl⟩
  constructor
  · constructor
    · intro s' w' hw hv
      rw [(e s' w').2.1, (e s' w').2.2]
      exact I.line s' w' hw ((e s' w').1 ▸ hv)
    · intro s' w1 w2 hw1 hw2 hv1 hv2 ht
      rw [(e s' w1).2.2, (e s' w2).2.2] at ht
      exact I.uniq s' w1 w2 hw1 hw2 ((e s' w1).1 ▸ hv1) ((e s' w2).1 ▸ hv2) ht
  · intro b
    constructor
    · rintro ⟨s', w', a1, a2, a3⟩
      exact ⟨s', w', a1, (e s' w').1 ▸ a2, (e s' w').2.1 ▸ a3⟩
    · rintro ⟨s', w', a1, a2, a3⟩
      exact ⟨s', w', a1, by rw [(e s' w').1, (e s' w').2.1]; exact ⟨a2, a3⟩⟩

end

theorem Cache.isHit_iff {σ} {g : Geo} (N : g.Nice) {c : Cache σ} (I : LInv g c.at') {a : Nat} (ha : g.Proper a) :
    c.isHit g a = true ↔ Has g c.at' (g.block a) := by
  rw [I.has_iff N ha]
  exact CSet.find_isSome

theorem Cache.find_some {σ} {g : Geo} (N : g.Nice) {c : Cache σ} (I : LInv g c.at') {a w : Nat} (ha : g.Proper a)
    (h : c.find g a = some w) : w < g.nWays ∧ (c.at' (g.idx a) w).valid = true ∧ (c.at' (g.idx a) w).addr = g.block a := by
  obtain ⟨h1, h2, h3⟩ := CSet.find_some h
  refine ⟨h1, h2, ?_⟩
  obtain ⟨i1, i2, i3, i4⟩ := I.line _ w h1 h2
  rw [← i2]
  exact (N.key _ _ i1 ha).2 ⟨by rw [← i3]; exact h3, i4⟩

/-! ### `SimpleCache2` -/

structure UInv {σ} (g : Geo) (P : σ → Prop) (u : User σ) : Prop where
  reps : Reps P u.c
  lines : LInv g u.c.at'
  holds : ∀ b, b ∈ held u.trace ↔ Has g u.c.at' b

theorem held_snoc (tr : List Obs) (o : Obs) : held (tr ++ [o]) = heldStep (held tr) o := by simp [held]

theorem at_allocate {σ} (g : Geo) (p : Policy σ) (c : Cache σ) (s w a : Nat) (nt : Option Bool) :
    (c.allocate g p s w a nt).at' = setAt c.at' s w ((c.at' s w).reset g a (nt.getD (c.at' s w).nt)) := by
  unfold Cache.allocate
  simp only
  rw [at_touchMRU]
  split
  · rw [← at_setLine]
    funext s' w'
    unfold Cache.at'
    simp only
    by_cases h : s' = g.idx a
    · subst h; rw [upd_same]
    · rw [upd_other _ _ h]
  · rw [at_setLine]; rfl

theorem reps_allocate {σ} {P : σ → Prop} {g : Geo} {p : Policy σ} {c : Cache σ}
    (hp : ∀ s w, P s → w < g.nWays → P (p.touchMRU s w) ∧ P (p.touchLRU s w)) (h : Reps P c) (s w a : Nat)
    (nt : Option Bool) (hw : w < g.nWays) : Reps P (c.allocate g p s w a nt) := by
  unfold Cache.allocate
  simp only
  apply Reps.touchMRU hp _ _ _ hw
  have h1 := h.setLine s w (Line.reset g ((c.sets s).ways w) a (nt.getD ((c.sets s).ways w).nt))
  split
  · intro s'
    by_cases hs : s' = g.idx a
    · subst hs; simp only [upd_same]; exact h1 _
    · simp only [upd_other _ _ hs]; exact h1 _
  · exact h1

theorem victim_lt {σ} {P : σ → Prop} {g : Geo} {p : Policy σ} {c : Cache σ} (hl : ∀ s, P s → p.lru s < g.nWays)
    (h : Reps P c) (a : Nat) (how : How) (hn : how = .nt true → 2 ≤ g.nWays) : c.victim g p a how < g.nWays := by
  unfold Cache.victim
  split
  · exact hl _ (h _)
  · unfold CSet.replaceCheck
    split
    · exact hl _ (h _)
    · omega
  · have := hn rfl
    unfold CSet.ntVictim
    split
    · omega
    · split
      · omega
      · split <;> omega
  · exact hl _ (h _)

theorem UInv.step {σ} {g : Geo} (N : g.Nice) {p : Policy σ} {P : σ → Prop}
    (hp : ∀ s w, P s → w < g.nWays → P (p.touchMRU s w) ∧ P (p.touchLRU s w)) (hr : ∀ s, P s → P (p.reset s))
    (hl : ∀ s, P s → p.lru s < g.nWays) {u : User σ} (I : UInv g P u) (o : Op) (ho : Legal g u o) :
    UInv g P (u.step g p o) := by
  have same : ∀ c' : Cache σ, Reps P c' → c'.at' = u.c.at' → UInv g P { u with c := c' } := by
    intro c' h1 h2
    exact ⟨h1, h2 ▸ I.lines, fun b => by show _ ↔ Has g c'.at' b; rw [h2]; exact I.holds b⟩
  cases o with
  | fill a how =>
    obtain ⟨ha, hm, hn⟩ := ho
    have hw := victim_lt hl I.reps a how hn
    have hm' : ¬ Has g u.c.at' (g.block a) := by
      rw [← Cache.isHit_iff N I.lines ha, hm]; simp
    refine ⟨reps_allocate hp I.reps _ _ _ _ hw, ?_, ?_⟩
    · show LInv g (u.c.allocate g p _ _ a _).at'
      rw [at_allocate]
      exact I.lines.put N ha hm' _ _ rfl rfl
    · intro b
      show b ∈ held (u.trace ++ [_]) ↔ Has g (u.c.allocate g p _ _ a _).at' b
      rw [at_allocate, I.lines.has_put N _ hw _ rfl rfl, held_snoc, heldStep, List.mem_cons, List.mem_filter, I.holds b]
      apply or_congr Iff.rfl
      apply and_congr Iff.rfl
      show _ ↔ ¬ (((u.c.sets (g.idx a)).ways (u.c.victim g p a how)).valid = true ∧ _)
      cases hv : ((u.c.sets (g.idx a)).ways (u.c.victim g p a how)).valid with
      | false => simp [hv]
      | true => simp [Cache.at']; exact ⟨fun h1 h2 => h1 h2.symm, fun h1 h2 => h1 h2.symm⟩
  | read a n =>
    simp only [User.step]
    cases hf : u.c.find g a with
    | none => exact I
    | some w =>
      have hw := (CSet.find_some hf).1
      unfold Cache.read
      simp only
      cases Line.read g ((u.c.sets (g.idx a)).ways w) (g.off a) n with
      | none => exact I
      | some bs => exact same _ (I.reps.touchMRU hp _ _ hw) (at_touchMRU _ _ _ _)
  | write a bs =>
    simp only [User.step]
    cases hf : u.c.find g a with
    | none => exact I
    | some w =>
      have hw := (CSet.find_some hf).1
      unfold Cache.write
      simp only
      cases hl : Line.write g ((u.c.sets (g.idx a)).ways w) (g.off a) bs with
      | none => exact I
      | some l =>
        unfold Line.write at hl
        split at hl
        · cases hl
          have h2 := I.lines.same (g.idx a) w { u.c.at' (g.idx a) w with data := put (u.c.at' (g.idx a) w).data (g.off a) bs, modified := true } rfl rfl rfl
          have e : ((u.c.setLine (g.idx a) w { u.c.at' (g.idx a) w with data := put (u.c.at' (g.idx a) w).data (g.off a) bs, modified := true }).touchMRU p (g.idx a) w).at' = _ :=
            (at_touchMRU _ _ _ _).trans (at_setLine _ _ _ _)
          refine ⟨(I.reps.setLine _ _ _).touchMRU hp _ _ hw, e ▸ h2.1, ?_⟩
          intro b
          exact (I.holds b).trans ((h2.2 b).symm.trans (by rw [← e]; exact Iff.rfl))
        · cases hl
  | touchMRU a =>
    simp only [User.step]
    cases hf : u.c.find g a with
    | none => exact I
    | some w => exact same _ (I.reps.touchMRU hp _ _ (CSet.find_some hf).1) (at_touchMRU _ _ _ _)
  | touchLRU a =>
    simp only [User.step]
    cases hf : u.c.find g a with
    | none => exact I
    | some w => exact same _ (I.reps.touchLRU hp _ _ (CSet.find_some hf).1) (at_touchLRU _ _ _ _)
  | invalidate a =>
    simp only [User.step]
    cases hf : u.c.find g a with
    | none => exact I
    | some w =>
      obtain ⟨hw, hv, hadr⟩ := Cache.find_some N I.lines ho hf
      have e : (u.c.invalidate g p (g.idx a) w).at' = _ := (at_touchLRU _ _ _ _).trans (at_setLine _ _ _ _)
      refine ⟨(I.reps.setLine _ _ _).touchLRU hp _ _ hw, ?_, ?_⟩
      · exact e ▸ I.lines.drop N _ _ _ rfl
      · intro b
        show b ∈ held (u.trace ++ [_]) ↔ Has g (u.c.invalidate g p (g.idx a) w).at' b
        rw [e, I.lines.has_drop N _ _ hw _ rfl hv, held_snoc, heldStep, List.mem_filter, I.holds b, hadr]
        simp
  | invalidateAll =>
    refine ⟨fun s => hr _ (I.reps s), ⟨?_, ?_⟩, ?_⟩
    · intro s w _ hv; cases hv
    · intro s w w' _ _ hv; cases hv
    · intro b
      show b ∈ held (u.trace ++ [_]) ↔ _
      rw [held_snoc, heldStep]
      constructor
      · intro h; simp at h
      · rintro ⟨s, w, _, hv, _⟩; cases hv

theorem Reach.inv {σ} {g : Geo} (N : g.Nice) {p : Policy σ} {P : σ → Prop} (h0 : P p.init)
    (hp : ∀ s w, P s → w < g.nWays → P (p.touchMRU s w) ∧ P (p.touchLRU s w)) (hr : ∀ s, P s → P (p.reset s))
    (hl : ∀ s, P s → p.lru s < g.nWays) {u : User σ} (h : Reach g p u) : UInv g P u := by
  induction h with
  | init d hd =>
    refine ⟨fun _ => h0, ⟨?_, ?_⟩, ?_⟩
    · intro s w _ hv; simp [Cache.at', Cache.init, hd] at hv
    · intro s w w' _ _ hv; simp [Cache.at', Cache.init, hd] at hv
    · intro b
      constructor
      · intro h; simp [held] at h
      · rintro ⟨s, w, _, hv, _⟩; simp [Cache.at', Cache.init, hd] at hv
  | step o _ ho ih => exact ih.step N hp hr hl o ho

end Sparta.Cache
