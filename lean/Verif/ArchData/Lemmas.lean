import Verif.ArchData.Spec
/-!
Helper lemmas: the fill pattern, the line map, and the simulation relation.
-/
namespace Sparta.ArchData

theorem fillLoop_get (pat : List UInt8) (w : Nat) (hw : 0 < w) (hp : pat.length = w) (fuel rem j : Nat)
    (hf : rem < fuel) (hj : j < rem) : (fillLoop pat w fuel rem)[j]? = pat[j % w]? := by
  induction fuel generalizing rem j with
  | zero => omega
  | succ fuel ih =>
    unfold fillLoop
    by_cases h : rem > w
    · rw [if_pos h]
      by_cases hjw : j < w
      · rw [List.getElem?_append_left (by omega), Nat.mod_eq_of_lt hjw]
      · rw [List.getElem?_append_right (by omega), hp, ih (rem - w) (j - w) (by omega) (by omega)]
        conv => rhs; rw [Nat.mod_eq_sub_mod (by omega)]
    · rw [if_neg h, List.getElem?_take, if_pos hj, Nat.mod_eq_of_lt (by omega)]

theorem fillLoop_length (pat : List UInt8) (w : Nat) (hw : 0 < w) (hp : pat.length = w) (fuel rem : Nat)
    (hf : rem < fuel) : (fillLoop pat w fuel rem).length = rem := by
  induction fuel generalizing rem with
  | zero => omega
  | succ fuel ih =>
    unfold fillLoop
    by_cases h : rem > w
    · rw [if_pos h, List.length_append, ih _ (by omega)]; omega
    · rw [if_neg h, List.length_take]; omega

theorem ofNat_congr {a b : Nat} (h : a % 256 = b % 256) : UInt8.ofNat a = UInt8.ofNat b := by
  apply UInt8.toNat_inj.1
  simpa using h

theorem byteOf_eq (v k : Nat) : byteOf v k = UInt8.ofNat (v >>> (8 * k)) := by
  unfold byteOf
  rw [Nat.shiftRight_eq_div_pow, Nat.pow_mul]

theorem rotate_byte (w fill off i : Nat) (hf : fill < 2 ^ (8 * w)) (ho : off < w) (hi : i < w) :
    UInt8.ofNat ((((fill >>> (8 * off)) ||| (fill <<< (8 * (w - off)))) % 2 ^ (8 * w)) >>> (8 * i)) =
      byteOf fill ((off + i) % w) := by
  rw [byteOf_eq]
  apply ofNat_congr
  have e : (256 : Nat) = 2 ^ 8 := rfl
  rw [e]
  apply Nat.eq_of_testBit_eq
  intro k
  rw [Nat.testBit_mod_two_pow, Nat.testBit_mod_two_pow, Nat.testBit_shiftRight, Nat.testBit_shiftRight,
    Nat.testBit_mod_two_pow, Nat.testBit_or, Nat.testBit_shiftRight, Nat.testBit_shiftLeft]
  by_cases hk : k < 8
  · have h1 : 8 * i + k < 8 * w := by omega
    simp only [hk, h1, decide_true, Bool.true_and]
    by_cases hc : off + i < w
    · have h2 : ¬ (8 * i + k ≥ 8 * (w - off)) := by omega
      rw [Nat.mod_eq_of_lt hc]
      simp only [h2, decide_false, Bool.false_and, Bool.or_false]
      congr 1; omega
    · have h2 : 8 * i + k ≥ 8 * (w - off) := by omega
      have h3 : (off + i) % w = off + i - w := by
        rw [Nat.mod_eq_sub_mod (by omega)]; exact Nat.mod_eq_of_lt (by omega)
      have h4 : fill.testBit (8 * off + (8 * i + k)) = false := by
        apply Nat.testBit_lt_two_pow
        exact Nat.lt_of_lt_of_le hf (Nat.pow_le_pow_right (by omega) (by omega))
      rw [h3, h4]
      simp only [h2, decide_true, Bool.true_and, Bool.false_or]
      congr 1; omega
  · simp [hk]

theorem fillWith_get (w fill size off j : Nat) (hf : fill < 2 ^ (8 * w)) (ho : off < w) (hj : j < size) :
    (fillWith w fill size off)[j]? = some (byteOf fill ((off + j) % w)) := by
  have hw : 0 < w := by omega
  unfold fillWith
  rw [fillLoop_get _ w hw (by simp) _ _ _ (by omega) hj]
  have hm := Nat.mod_lt j hw
  rw [List.getElem?_map, List.getElem?_range hm, Option.map_some, rotate_byte w fill off _ hf ho hm]
  congr 2
  rw [Nat.add_mod, Nat.mod_mod, ← Nat.add_mod]

/-- a correct fill size -/
def FillOk (fill fsz : Nat) : Prop := (fsz = 1 ∨ fsz = 2 ∨ fsz = 4 ∨ fsz = 8) ∧ fill < 2 ^ (8 * fsz)

theorem fillValue_spec {fill fsz : Nat} (h : FillOk fill fsz) (size off : Nat) (ho : off < fsz) :
    fillValue size fill fsz off = some ((List.range size).map fun j => byteOf fill ((off + j) % fsz)) := by
  obtain ⟨h1, h2⟩ := h
  unfold fillValue
  by_cases e : fsz = 1
  · subst e
    rw [if_pos rfl]
    congr 1
    apply List.ext_getElem?
    intro j
    by_cases hj : j < size
    · simp [hj, Nat.mod_one, byteOf]
    · rw [List.getElem?_eq_none (by simp; omega), List.getElem?_eq_none (by simp; omega)]
  · rw [if_neg e, if_pos (by omega)]
    congr 1
    apply List.ext_getElem?
    intro j
    by_cases hj : j < size
    · rw [fillWith_get fsz fill size off j h2 ho hj, List.getElem?_map, List.getElem?_range hj, Option.map_some]
    · rw [List.getElem?_eq_none (by
        unfold fillWith
        rw [fillLoop_length _ fsz (by omega) (by simp) _ _ (by omega)]; omega),
        List.getElem?_eq_none (by simp; omega)]

theorem fillData_get (m : AD) (h : FillOk m.fill m.fsz) (j : Nat) (hj : j < m.lineSize) :
    m.fillData j = byteOf m.fill (j % m.fsz) := by
  unfold AD.fillData
  rw [fillValue_spec h _ _ (by have := h.1; omega)]
  simp [List.getD_eq_getElem?_getD, hj]

/-! ### the line map -/

theorem lookup_map_upd (l : List (Nat × Line)) (i j : Nat) (f : Line → Line) :
    (l.map fun p => if p.1 = i then (p.1, f p.2) else p).lookup j =
      if j = i then (l.lookup j).map f else l.lookup j := by
  induction l with
  | nil => simp
  | cons p l ih =>
    obtain ⟨k, x⟩ := p
    rw [List.map_cons]
    by_cases hk : k = i
    · rw [if_pos (show (k, x).1 = i from hk)]
      by_cases hj : j = k
      · subst hj; rw [if_pos hk]; simp [List.lookup_cons]
      · have hjf : (j == k) = false := by simpa using hj
        rw [List.lookup_cons, hjf, List.lookup_cons, hjf, ih]
    · rw [if_neg (show ¬ (k, x).1 = i from hk)]
      by_cases hj : j = k
      · subst hj; rw [if_neg hk]; simp [List.lookup_cons]
      · have hjf : (j == k) = false := by simpa using hj
        rw [List.lookup_cons, hjf, List.lookup_cons, hjf, ih]

theorem lookup_map_all (l : List (Nat × Line)) (j : Nat) (f : Line → Line) :
    (l.map fun p => (p.1, f p.2)).lookup j = (l.lookup j).map f := by
  induction l with
  | nil => simp
  | cons p l ih =>
    obtain ⟨k, x⟩ := p
    rw [List.map_cons]
    by_cases hj : j = k
    · subst hj; simp [List.lookup_cons]
    · have hjf : (j == k) = false := by simpa using hj
      rw [List.lookup_cons, hjf, List.lookup_cons, hjf, ih]

theorem lookup_append_new (l : List (Nat × Line)) (i j : Nat) (x : Line) (h : l.lookup i = none) :
    (l ++ [(i, x)]).lookup j = if j = i then some x else l.lookup j := by
  induction l with
  | nil =>
    by_cases e : j = i
    · simp [List.lookup_cons, e]
    · have e' : (j == i) = false := by simpa using e
      simp [List.lookup_cons, e', e]
  | cons p l ih =>
    obtain ⟨k, y⟩ := p
    rw [List.lookup_cons] at h
    by_cases hik : i = k
    · subst hik; simp at h
    · have hikf : (i == k) = false := by simpa using hik
      rw [hikf] at h
      rw [List.cons_append, List.lookup_cons, List.lookup_cons]
      by_cases hj : j = k
      · subst hj; simp [Ne.symm hik]
      · have hjf : (j == k) = false := by simpa using hj
        rw [hjf, ih h]

theorem lookup_none_iff (l : List (Nat × Line)) (i : Nat) : l.lookup i = none ↔ i ∉ l.map (·.1) := by
  induction l with
  | nil => simp
  | cons p l ih =>
    obtain ⟨k, y⟩ := p
    rw [List.lookup_cons]
    by_cases hik : i = k
    · subst hik; simp
    · have hikf : (i == k) = false := by simpa using hik
      rw [hikf]; simp [ih, hik]

/-! ### the content of a memory -/

/-- the byte the memory shows at an address -/
def AD.byteAt (m : AD) (a : Nat) : UInt8 :=
  match m.find (a / m.lineSize) with
  | some l => l.data (a % m.lineSize)
  | none => byteOf m.fill ((a % m.lineSize) % m.fsz)

theorem lineIdx_eq (m : AD) (a : Nat) : m.lineIdx a = a / m.lineSize := Nat.shiftRight_eq_div_pow _ _

theorem lineSize_pos (m : AD) : 0 < m.lineSize := Nat.pow_pos (by omega)

/-- the part of the state that never changes -/
def AD.sameCfg (m q : AD) : Prop :=
  q.lsb = m.lsb ∧ q.fill = m.fill ∧ q.fsz = m.fsz ∧ q.canFree = m.canFree ∧ q.size = m.size ∧ q.inits = m.inits

theorem AD.sameCfg.refl (m : AD) : m.sameCfg m := ⟨rfl, rfl, rfl, rfl, rfl, rfl⟩

theorem AD.sameCfg.trans {a b c : AD} (h : a.sameCfg b) (g : b.sameCfg c) : a.sameCfg c := by
  obtain ⟨h1, h2, h3, h4, h5, h6⟩ := h
  obtain ⟨g1, g2, g3, g4, g5, g6⟩ := g
  exact ⟨g1.trans h1, g2.trans h2, g3.trans h3, g4.trans h4, g5.trans h5, g6.trans h6⟩

theorem AD.sameCfg.lineSize {m q : AD} (h : m.sameCfg q) : q.lineSize = m.lineSize := by
  unfold AD.lineSize; rw [h.1]

/-- getLine keeps what is seen -/
theorem getLine_spec (m : AD) (hf : FillOk m.fill m.fsz) (a : Nat) (ha : a < m.size) :
    ∃ q l, m.getLine a = some q ∧ m.sameCfg q ∧ q.find (a / m.lineSize) = some l ∧
      (∀ b, q.byteAt b = m.byteAt b) ∧
      (∀ i, i ≠ a / m.lineSize → q.find i = m.find i) ∧
      (∀ l', m.find (a / m.lineSize) = some l' → l = l') ∧
      (m.find (a / m.lineSize) = none → l.dirty = true) ∧
      (q.lines.map (·.1) = m.lines.map (·.1) ∨
        (m.find (a / m.lineSize) = none ∧ q.lines.map (·.1) = m.lines.map (·.1) ++ [a / m.lineSize])) := by
  unfold AD.getLine
  rw [if_pos ha, lineIdx_eq]
  rcases Option.eq_none_or_eq_some (m.find (a / m.lineSize)) with h | ⟨l, h⟩
  · rw [h]
    have hfind : ∀ i, (m.allocate (a / m.lineSize)).find i =
        if i = a / m.lineSize then some ⟨m.fillData, true⟩ else m.find i :=
      fun i => lookup_append_new _ _ _ _ h
    refine ⟨m.allocate (a / m.lineSize), ⟨m.fillData, true⟩, rfl, AD.sameCfg.refl m, ?_, ?_, ?_, ?_, ?_, ?_⟩
    · rw [hfind, if_pos rfl]
    · intro b
      unfold AD.byteAt
      rw [show (m.allocate (a / m.lineSize)).lineSize = m.lineSize from rfl, hfind]
      by_cases e : b / m.lineSize = a / m.lineSize
      · rw [if_pos e, e, h]
        exact fillData_get m hf _ (Nat.mod_lt _ (lineSize_pos m))
      · rw [if_neg e]; rfl
    · intro i hi; rw [hfind, if_neg hi]
    · intro l' hl'; cases hl'
    · intro _; rfl
    · right; exact ⟨rfl, by simp [AD.allocate]⟩
  · rw [h]
    refine ⟨m, l, rfl, AD.sameCfg.refl m, h, fun _ => rfl, fun _ _ => rfl, ?_, ?_, Or.inl rfl⟩
    · intro l' hl'; exact Option.some.inj hl'
    · intro h'; cases h'

theorem find_modify (m : AD) (i j : Nat) (f : Line → Line) :
    (m.modify i f).find j = if j = i then (m.find j).map f else m.find j := lookup_map_upd _ _ _ _

theorem keys_modify (m : AD) (i : Nat) (f : Line → Line) : (m.modify i f).lines.map (·.1) = m.lines.map (·.1) := by
  unfold AD.modify
  rw [List.map_map]
  apply List.map_congr_left
  intro p _
  simp only [Function.comp]
  split <;> rfl

theorem keys_allocate (m : AD) (i : Nat) : (m.allocate i).lines.map (·.1) = m.lines.map (·.1) ++ [i] := by
  simp [AD.allocate]

theorem wrap_le {k : Nat} (h : k < 2 ^ 64) : wrap k = k := Nat.mod_eq_of_lt h

/-- offset within a line and index, for addresses of one access -/
theorem in_line {a n ls j : Nat} (h0 : 0 < ls) (h : a % ls + n ≤ ls) (hj : j < n) :
    (a + j) / ls = a / ls ∧ (a + j) % ls = a % ls + j := by
  have h1 : a + j = (a % ls + j) + ls * (a / ls) := by have := Nat.div_add_mod a ls; omega
  constructor
  · rw [h1, Nat.add_mul_div_left _ _ h0, Nat.div_eq_of_lt (by omega), Nat.zero_add]
  · rw [h1, Nat.add_mul_mod_self_left, Nat.mod_eq_of_lt (by omega)]

/-- a position of the line of `a` -/
theorem same_line {a x ls : Nat} (h0 : 0 < ls) (h : x / ls = a / ls) : x + a % ls = a + x % ls := by
  have h1 := Nat.div_add_mod a ls
  have h2 := Nat.div_add_mod x ls
  rw [h] at h2
  omega

/-- configuration and map are well formed -/
structure WF (m : AD) : Prop where
  fill : FillOk m.fill m.fsz
  lsb : m.lsb ≤ 31
  size : m.size ≤ 2 ^ 63
  nodup : (m.lines.map (·.1)).Nodup
  /-- lines exist only for addresses of the memory -/
  inside : ∀ i, m.find i ≠ none → i * m.lineSize < m.size

theorem lineSize_le {m : AD} (h : WF m) : m.lineSize ≤ 2 ^ 31 := Nat.pow_le_pow_right (by omega) h.lsb

theorem getLine_wf {m q : AD} (h : WF m) {a : Nat} (ha : a < m.size) (hq : m.getLine a = some q) : WF q := by
  obtain ⟨q', l, h1, cfg, h3, _, h5, _, _, hk⟩ := getLine_spec m h.fill a ha
  rw [hq] at h1
  cases h1
  refine ⟨?_, ?_, ?_, ?_, ?_⟩
  · rw [cfg.2.1, cfg.2.2.1]; exact h.fill
  · rw [cfg.1]; exact h.lsb
  · rw [cfg.2.2.2.2.1]; exact h.size
  · rcases hk with hk | ⟨hn, hk⟩
    · rw [hk]; exact h.nodup
    · rw [hk, List.nodup_append]
      refine ⟨h.nodup, by simp, ?_⟩
      intro x hx y hy e
      rw [List.mem_singleton] at hy
      subst hy; subst e
      exact (lookup_none_iff _ _).1 hn hx
  · intro i hi
    rw [cfg.lineSize, cfg.2.2.2.2.1]
    by_cases e : i = a / m.lineSize
    · rw [e]; exact Nat.lt_of_le_of_lt (Nat.div_mul_le_self _ _) ha
    · rw [h5 i e] at hi; exact h.inside i hi

theorem modify_wf {m : AD} (h : WF m) (i : Nat) (f : Line → Line) : WF (m.modify i f) := by
  refine ⟨h.fill, h.lsb, h.size, ?_, ?_⟩
  · rw [keys_modify]; exact h.nodup
  · intro j hj
    rw [find_modify] at hj
    apply h.inside j
    intro hn
    rw [hn] at hj
    split at hj <;> simp at hj

/-- what a write does -/
theorem write_spec {m : AD} (h : WF m) (a : Nat) (bs : List UInt8) (hb : bs.length < 2 ^ 63) :
    WF (m.write a bs).1 ∧ m.sameCfg (m.write a bs).1 ∧
    ((m.write a bs).2 = true ↔ a < m.size ∧ a % m.lineSize + bs.length ≤ m.lineSize) ∧
    (∀ x, (m.write a bs).1.byteAt x =
      if (m.write a bs).2 = true ∧ a ≤ x ∧ x < a + bs.length then bs.getD (x - a) 0 else m.byteAt x) ∧
    (∀ i, ((m.write a bs).1.find i = none ∨ ∃ l, (m.write a bs).1.find i = some l ∧ l.dirty = false) →
      (m.write a bs).1.find i = m.find i) := by
  unfold AD.write
  by_cases ha : a < m.size
  · obtain ⟨q, l, h1, cfg, h3, h4, h5, h6, h7, hk⟩ := getLine_spec m h.fill a ha
    have hq := getLine_wf h ha h1
    rw [h1]
    dsimp only
    have hls := lineSize_le h
    have hpos := lineSize_pos m
    have hmod := Nat.mod_lt a hpos
    have hwr : wrap (a % m.lineSize + bs.length) = a % m.lineSize + bs.length := wrap_le (by omega)
    simp only [lineIdx_eq, cfg.lineSize, hwr]
    by_cases hfit : a % m.lineSize + bs.length ≤ m.lineSize
    · rw [if_pos hfit]
      dsimp only
      refine ⟨modify_wf hq _ _, cfg.trans ⟨rfl, rfl, rfl, rfl, rfl, rfl⟩, ⟨fun _ => ⟨ha, hfit⟩, fun _ => rfl⟩, ?_, ?_⟩
      · intro x
        have hb' : ∀ f : Line → Line, (q.modify (a / m.lineSize) f).byteAt x =
            if x / m.lineSize = a / m.lineSize then (f l).data (x % m.lineSize) else m.byteAt x := by
          intro f
          by_cases e : x / m.lineSize = a / m.lineSize
          · rw [if_pos e]
            unfold AD.byteAt
            rw [show (q.modify (a / m.lineSize) f).lineSize = m.lineSize from cfg.lineSize, find_modify, if_pos e, e, h3]
            rfl
          · rw [if_neg e, ← h4]
            unfold AD.byteAt
            rw [show (q.modify (a / m.lineSize) f).lineSize = m.lineSize from cfg.lineSize, find_modify, if_neg e,
              cfg.lineSize]
            rfl
        rw [hb']
        by_cases e : x / m.lineSize = a / m.lineSize
        · rw [if_pos e]
          have hs := same_line hpos e
          dsimp only
          unfold overwrite
          have hx := Nat.mod_lt x hpos
          by_cases hr : a ≤ x ∧ x < a + bs.length
          · rw [if_pos ⟨by omega, by omega⟩, if_pos ⟨rfl, hr⟩]
            congr 1; omega
          · rw [if_neg (by omega), if_neg (by rintro ⟨_, hh⟩; exact hr hh)]
            rw [← h4 x]
            unfold AD.byteAt
            rw [cfg.lineSize, e, h3]
        · rw [if_neg e, if_neg]
          rintro ⟨_, hx1, hx2⟩
          apply e
          have := (in_line hpos hfit (j := x - a) (by omega)).1
          rw [show a + (x - a) = x by omega] at this
          exact this
      · intro i hi
        rw [find_modify] at hi ⊢
        by_cases e : i = a / m.lineSize
        · rw [if_pos e, e, h3] at hi
          simp at hi
        · rw [if_neg e]; exact h5 i e
    · rw [if_neg hfit]
      dsimp only
      refine ⟨hq, cfg, ⟨fun hh => (by cases hh), fun hh => absurd hh.2 hfit⟩, ?_, ?_⟩
      · intro x
        rw [if_neg (by simp)]; exact h4 x
      · intro i hi
        by_cases e : i = a / m.lineSize
        · rw [e, h3] at hi
          rw [e, h3]
          rcases Option.eq_none_or_eq_some (m.find (a / m.lineSize)) with hn | ⟨l', hs⟩
          · rcases hi with hi | ⟨l2, hi, hd⟩
            · cases hi
            · cases hi; rw [h7 hn] at hd; cases hd
          · rw [hs, h6 l' hs]
        · exact h5 i e
  · have hg : m.getLine a = none := by unfold AD.getLine; rw [if_neg ha]
    rw [hg]
    dsimp only
    refine ⟨h, AD.sameCfg.refl m, ⟨fun hh => (by cases hh), fun hh => absurd hh.1 ha⟩, ?_, fun _ _ => rfl⟩
    intro x
    rw [if_neg (by simp)]

theorem clean_spec {m : AD} (h : WF m) :
    WF m.clean ∧ m.sameCfg m.clean ∧ ∀ a, m.clean.byteAt a = byteOf m.fill ((a % m.lineSize) % m.fsz) := by
  unfold AD.clean
  by_cases hc : m.canFree = true
  · rw [if_pos hc]
    refine ⟨⟨h.fill, h.lsb, h.size, by simp, ?_⟩, ⟨rfl, rfl, rfl, rfl, rfl, rfl⟩, ?_⟩
    · intro i hi; exact absurd rfl hi
    · intro a; rfl
  · rw [if_neg hc]
    have hfind : ∀ i, AD.find { m with lines := m.lines.map fun p => (p.1, ⟨m.fillData, p.2.dirty⟩) } i =
        (m.find i).map fun l => ⟨m.fillData, l.dirty⟩ := fun i => lookup_map_all m.lines i (fun l => ⟨m.fillData, l.dirty⟩)
    refine ⟨⟨h.fill, h.lsb, h.size, ?_, ?_⟩, ⟨rfl, rfl, rfl, rfl, rfl, rfl⟩, ?_⟩
    · have : (m.lines.map fun p => (p.1, (⟨m.fillData, p.2.dirty⟩ : Line))).map (·.1) = m.lines.map (·.1) := by
        rw [List.map_map]; rfl
      rw [this]; exact h.nodup
    · intro i hi
      rw [hfind] at hi
      apply h.inside i
      intro hn; rw [hn] at hi; simp at hi
    · intro a
      unfold AD.byteAt
      rw [hfind]
      have hp : a % m.lineSize < m.lineSize := Nat.mod_lt _ (lineSize_pos m)
      change (match (m.find (a / m.lineSize)).map fun l => (⟨m.fillData, l.dirty⟩ : Line) with
        | some l => l.data (a % m.lineSize) | none => byteOf m.fill ((a % m.lineSize) % m.fsz)) = _
      cases m.find (a / m.lineSize) with
      | none => rfl
      | some l => exact fillData_get m h.fill _ hp

/-! ### simulation -/

structure Rep (m : AD) (s : Spec) : Prop where
  wf : WF m
  lsb : s.lsb = m.lsb
  fill : s.fill = m.fill
  fsz : s.fsz = m.fsz
  size : s.size = m.size
  inits : s.inits = m.inits
  short : ∀ p ∈ m.inits, p.2.length < 2 ^ 63
  mem : ∀ a, m.byteAt a = s.mem a

theorem Rep.ls {m : AD} {s : Spec} (r : Rep m s) : 2 ^ s.lsb = m.lineSize := by rw [r.lsb]; rfl

theorem rep_store {m : AD} {s : Spec} (r : Rep m s) (a : Nat) (bs : List UInt8) (hb : bs.length < 2 ^ 63) :
    Rep (m.write a bs).1 (if s.inLine a bs.length then s.store a bs else s) ∧
      ((m.write a bs).2 = s.inLine a bs.length) := by
  obtain ⟨w, cfg, hok, hmem, _⟩ := write_spec r.wf a bs hb
  have e : (m.write a bs).2 = s.inLine a bs.length := by
    rw [Bool.eq_iff_iff, hok]
    unfold Spec.inLine
    rw [r.ls, r.size]; simp
  refine ⟨?_, e⟩
  rw [e] at hmem
  obtain ⟨c1, c2, c3, c4, c5, c6⟩ := cfg
  by_cases hi : s.inLine a bs.length = true
  · rw [if_pos hi]
    refine ⟨w, r.lsb.trans c1.symm, r.fill.trans c2.symm, r.fsz.trans c3.symm, r.size.trans c5.symm,
      r.inits.trans c6.symm, by rw [c6]; exact r.short, ?_⟩
    intro x
    rw [hmem, r.mem]
    unfold Spec.store
    dsimp only
    by_cases hx : a ≤ x ∧ x < a + bs.length
    · rw [if_pos ⟨hi, hx⟩, if_pos hx]
    · rw [if_neg (fun hh => hx hh.2), if_neg hx]
  · rw [if_neg hi]
    refine ⟨w, r.lsb.trans c1.symm, r.fill.trans c2.symm, r.fsz.trans c3.symm, r.size.trans c5.symm,
      r.inits.trans c6.symm, by rw [c6]; exact r.short, ?_⟩
    intro x
    rw [hmem, r.mem, if_neg (fun hh => hi hh.1)]

theorem rep_stores {l : List (Nat × List UInt8)} : ∀ {m : AD} {s : Spec}, Rep m s → (∀ p ∈ l, p.2.length < 2 ^ 63) →
    Rep (m.writeInits l) (s.stores l) := by
  induction l with
  | nil => intro m s r _; exact r
  | cons p l ih =>
    intro m s r h
    obtain ⟨a, bs⟩ := p
    exact ih (rep_store r a bs (h (a, bs) (List.mem_cons_self ..))).1 (fun q hq => h q (List.mem_cons_of_mem _ hq))

theorem rep_clean {m : AD} {s : Spec} (r : Rep m s) : Rep m.clean { s with mem := s.blank } := by
  obtain ⟨w, ⟨c1, c2, c3, c4, c5, c6⟩, hm⟩ := clean_spec r.wf
  refine ⟨w, r.lsb.trans c1.symm, r.fill.trans c2.symm, r.fsz.trans c3.symm, r.size.trans c5.symm,
      r.inits.trans c6.symm, by rw [c6]; exact r.short, ?_⟩
  intro a
  rw [hm]
  show _ = byteOf s.fill ((a % 2 ^ s.lsb) % s.fsz)
  rw [r.fill, r.fsz, r.ls]

theorem line_load {m : AD} {s : Spec} (r : Rep m s) {a n : Nat} {l : Line} (hl : m.find (a / m.lineSize) = some l)
    (hfit : a % m.lineSize + n ≤ m.lineSize) :
    (List.range n).map (fun j => l.data (a % m.lineSize + j)) = s.load a n := by
  unfold Spec.load
  apply List.map_congr_left
  intro j hj
  rw [List.mem_range] at hj
  obtain ⟨h1, h2⟩ := in_line (lineSize_pos m) hfit hj
  rw [← r.mem]
  unfold AD.byteAt
  rw [h1, hl, h2]

theorem inLine_iff {m : AD} {s : Spec} (r : Rep m s) (a n : Nat) :
    s.inLine a n = true ↔ a < m.size ∧ a % m.lineSize + n ≤ m.lineSize := by
  unfold Spec.inLine; rw [r.ls, r.size]; simp

theorem rep_same {m q : AD} {s : Spec} (r : Rep m s) (w : WF q) (c : m.sameCfg q) (h : ∀ b, q.byteAt b = m.byteAt b) :
    Rep q s := by
  obtain ⟨c1, c2, c3, c4, c5, c6⟩ := c
  exact ⟨w, r.lsb.trans c1.symm, r.fill.trans c2.symm, r.fsz.trans c3.symm, r.size.trans c5.symm,
      r.inits.trans c6.symm, by rw [c6]; exact r.short, fun a => (h a).trans (r.mem a)⟩

theorem rep_read {m : AD} {s : Spec} (r : Rep m s) (a n : Nat) (hn : n < 2 ^ 63) :
    Rep (m.step (.read a n)).1 s ∧ (m.step (.read a n)).2 = (s.step (.read a n)).2 := by
  unfold AD.step Spec.step
  dsimp only
  by_cases ha : a < m.size
  · obtain ⟨q, l, h1, cfg, h3, h4, _⟩ := getLine_spec m r.wf.fill a ha
    have hq := getLine_wf r.wf ha h1
    have rq := rep_same r hq cfg h4
    have hls := lineSize_le r.wf
    have hmod := Nat.mod_lt a (lineSize_pos m)
    unfold AD.read
    rw [h1]
    dsimp only
    rw [Option.bind_some, lineIdx_eq, cfg.lineSize, h3, Option.bind_some]
    unfold Line.read
    rw [wrap_le (by omega)]
    by_cases hfit : a % m.lineSize + n ≤ m.lineSize
    · rw [if_pos hfit, if_pos ((inLine_iff r a n).2 ⟨ha, hfit⟩)]
      refine ⟨rq, ?_⟩
      have := line_load rq (a := a) (n := n) (l := l) (by rw [cfg.lineSize]; exact h3) (by rw [cfg.lineSize]; exact hfit)
      rw [cfg.lineSize] at this
      rw [Option.map_some]
      dsimp only
      rw [this]
    · rw [if_neg hfit, if_neg (fun h => hfit ((inLine_iff r a n).1 h).2)]
      exact ⟨rq, rfl⟩
  · have hg : m.getLine a = none := by unfold AD.getLine; rw [if_neg ha]
    rw [hg, if_neg (fun h => ha ((inLine_iff r a n).1 h).1)]
    exact ⟨r, rfl⟩

theorem wrap_arith (W a n o k L S : Nat) (hW : W = 2 ^ 64) (hs : S ≤ 2 ^ 63) (hL : L ≤ 2 ^ 31) (hn : n < 2 ^ 63)
    (ha : a < S) (hd : k + o = a) (ho : o < L) :
    ((a + n) % W + W - k) % W = o + n ∧ (a + n) % W = a + n := by
  have h1 : (a + n) % W = a + n := Nat.mod_eq_of_lt (by omega)
  refine ⟨?_, h1⟩
  rw [h1]
  have h2 : a + n + W - k = (o + n) + W := by omega
  rw [h2, Nat.add_mod_right, Nat.mod_eq_of_lt (by omega)]

theorem canAccess_iff {m : AD} (w : WF m) (a n : Nat) (ha : a < m.size) (hn : n < 2 ^ 63) :
    m.canAccess a n = true ↔ a % m.lineSize + n ≤ m.lineSize ∧ a + n ≤ m.size := by
  unfold AD.canAccess wrap
  have hd := Nat.div_add_mod a m.lineSize
  rw [Nat.mul_comm] at hd
  obtain ⟨W, hW⟩ : ∃ W, W = 2 ^ 64 := ⟨_, rfl⟩
  rw [← hW]
  obtain ⟨h1, h2⟩ := wrap_arith W a n _ _ _ _ hW w.size (lineSize_le w) hn ha hd (Nat.mod_lt a (lineSize_pos m))
  rw [h1, h2]
  simp

end Sparta.ArchData
