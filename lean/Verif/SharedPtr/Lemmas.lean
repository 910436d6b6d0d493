import Verif.SharedPtr.Spec
namespace Sparta.SharedPtr

/-- what is known of one reference count with `n` shared and `m` weak pointers -/
structure CellOk (x : Cell) (n m : Nat) : Prop where
  freed : x.freed = decide (n = 0 ∧ m = 0)
  wp : x.wp = m
  count : x.count = if n = 0 then -1 else (n : Int)
  pNull : x.pNull = (!x.pooled && decide (n = 0))

/-- the reference counts fit the numbers `a c` of shared and `b c` of weak pointers to `c` -/
structure Inv (s : State) (a b : Nat → Nat) : Prop where
  held : ∀ c, 0 < a c + b c → c < s.cells.length
  cell : ∀ c x, s.cells[c]? = some x → CellOk x (a c) (b c)
  objs : ∀ c x, s.cells[c]? = some x → x.obj < s.next ∧ s.log.count x.obj = if a c = 0 then 1 else 0
  inj : ∀ (c d : Nat) (x y : Cell), s.cells[c]? = some x → s.cells[d]? = some y → x.obj = y.obj → c = d
  past : ∀ o, o < s.next → (∃ (c : Nat) (x : Cell), s.cells[c]? = some x ∧ x.obj = o) ∨ s.log.count o = 1
  logs : ∀ o ∈ s.log, o < s.next
  freeNodup : s.free.Nodup
  freeMem : ∀ c, c ∈ s.free ↔ ∃ x : Cell, s.cells[c]? = some x ∧ x.pooled = true ∧ x.freed = true
  alloc : s.cells.countP (·.pooled) = s.allocated
  used : s.free.length + s.cells.countP (fun x => x.pooled && !x.freed) = s.allocated
  le : s.allocated ≤ s.maxBlocks

/-- one reference count changes, its object may end and its block may be given back -/
def change (s : State) (c : Nat) (x' : Cell) (l f : List Nat) : State :=
  { s with cells := s.cells.set c x', log := s.log ++ l, free := s.free ++ f }

theorem getElem?_set' {s : State} {c : Nat} {x x' : Cell} (hx : s.cells[c]? = some x) (d : Nat) :
    (s.cells.set c x')[d]? = if c = d then some x' else s.cells[d]? := by
  have hc : c < s.cells.length := (List.getElem?_eq_some_iff.mp hx).1
  rw [List.getElem?_set]
  by_cases h : c = d
  · subst h; simp [hc]
  · simp [h]

theorem inv_change {s : State} {a b a' b' : Nat → Nat} (h : Inv s a b) {c : Nat} {x x' : Cell} (hx : s.cells[c]? = some x)
    (ho : x'.obj = x.obj) (hp : x'.pooled = x.pooled) (hf : x.freed = false) (hok : CellOk x' (a' c) (b' c))
    (off : ∀ d, d ≠ c → a' d = a d ∧ b' d = b d) (hres : 0 < a' c → 0 < a c)
    {l f : List Nat} (hl : l = if 0 < a c ∧ a' c = 0 then [x.obj] else [])
    (hfr : f = if x.pooled ∧ x'.freed then [c] else []) : Inv (change s c x' l f) a' b' := by
  have hc : c < s.cells.length := (List.getElem?_eq_some_iff.mp hx).1
  have hxe : s.cells[c] = x := (List.getElem?_eq_some_iff.mp hx).2
  have hget := getElem?_set' (x' := x') hx
  have hnf : c ∉ s.free := by
    intro hm
    obtain ⟨y, hy, _, hyf⟩ := (h.freeMem c).mp hm
    rw [hx] at hy; cases hy
    rw [hf] at hyf; cases hyf
  constructor
  · intro d hd
    show d < (s.cells.set c x').length
    rw [List.length_set]
    by_cases hdc : d = c
    · subst hdc; exact hc
    · have := off d hdc
      exact h.held d (by omega)
  · intro d y hy
    replace hy : (s.cells.set c x')[d]? = some y := hy
    rw [hget] at hy
    by_cases hdc : c = d
    · subst hdc; rw [if_pos rfl] at hy; cases hy; exact hok
    · rw [if_neg hdc] at hy
      obtain ⟨e1, e2⟩ := off d (fun e => hdc e.symm)
      rw [e1, e2]; exact h.cell d y hy
  · intro d y hy
    replace hy : (s.cells.set c x')[d]? = some y := hy
    show y.obj < s.next ∧ (s.log ++ l).count y.obj = _
    rw [hget] at hy
    rw [List.count_append]
    by_cases hdc : c = d
    · subst hdc; rw [if_pos rfl] at hy; cases hy
      obtain ⟨q1, q2⟩ := h.objs c x hx
      rw [ho, q2, hl]
      refine ⟨q1, ?_⟩
      by_cases h1 : a c = 0 <;> by_cases h2 : a' c = 0
      · simp [h1, h2]
      · exfalso; have := hres (by omega); omega
      · rw [if_neg h1, if_pos ⟨by omega, h2⟩, if_pos h2]; simp
      · simp [h1, h2]
    · rw [if_neg hdc] at hy
      obtain ⟨e1, e2⟩ := off d (fun e => hdc e.symm)
      obtain ⟨q1, q2⟩ := h.objs d y hy
      refine ⟨q1, ?_⟩
      rw [q2, e1]
      have : l.count y.obj = 0 := by
        rw [hl]
        split
        · rw [List.count_eq_zero]
          intro hm
          simp at hm
          exact hdc (h.inj c d x y hx hy hm.symm)
        · simp
      omega
  · intro d e y z hy hz hyz
    replace hy : (s.cells.set c x')[d]? = some y := hy
    replace hz : (s.cells.set c x')[e]? = some z := hz
    rw [hget] at hy hz
    by_cases hdc : c = d <;> by_cases hec : c = e
    · omega
    · rw [if_pos hdc] at hy; rw [if_neg hec] at hz; cases hy
      exfalso; exact hec (h.inj c e x z hx hz (by rw [← ho]; exact hyz))
    · rw [if_neg hdc] at hy; rw [if_pos hec] at hz; cases hz
      exfalso; exact hdc (h.inj c d x y hx hy (by rw [← ho]; exact hyz.symm))
    · rw [if_neg hdc] at hy; rw [if_neg hec] at hz
      exact h.inj d e y z hy hz hyz
  · intro o ho'
    show _ ∨ (s.log ++ l).count o = 1
    rcases h.past o ho' with ⟨d, y, hy, hyo⟩ | hlog
    · left
      by_cases hdc : c = d
      · subst hdc
        rw [hx] at hy; cases hy
        refine ⟨c, x', ?_, by rw [ho]; exact hyo⟩
        show (s.cells.set c x')[c]? = _
        rw [hget, if_pos rfl]
      · refine ⟨d, y, ?_, hyo⟩
        show (s.cells.set c x')[d]? = _
        rw [hget, if_neg hdc]; exact hy
    · by_cases hoc : x.obj = o
      · left
        refine ⟨c, x', ?_, by rw [ho]; exact hoc⟩
        show (s.cells.set c x')[c]? = _
        rw [hget, if_pos rfl]
      · right
        rw [List.count_append, hlog]
        have : l.count o = 0 := by
          rw [hl]
          split
          · rw [List.count_eq_zero]; simp; exact fun e => hoc e.symm
          · simp
        omega
  · intro o ho'
    rcases List.mem_append.mp (show o ∈ s.log ++ l from ho') with h1 | h1
    · exact h.logs o h1
    · rw [hl] at h1
      split at h1
      · simp at h1; rw [h1]; exact (h.objs c x hx).1
      · cases h1
  · show (s.free ++ f).Nodup
    rw [hfr]
    split
    · rw [List.nodup_append]
      refine ⟨h.freeNodup, by simp, ?_⟩
      intro p hp' q hq e
      simp at hq
      exact hnf (by rw [← hq, ← e]; exact hp')
    · simpa using h.freeNodup
  · intro d
    show d ∈ s.free ++ f ↔ ∃ y : Cell, (s.cells.set c x')[d]? = some y ∧ _
    rw [List.mem_append, h.freeMem, hget, hfr]
    by_cases hdc : c = d
    · subst hdc
      rw [if_pos rfl, hx]
      constructor
      · rintro (⟨y, hy, _, hyf⟩ | hm)
        · cases hy; rw [hf] at hyf; cases hyf
        · split at hm
          · rename_i hh
            exact ⟨x', rfl, by rw [hp]; exact hh.1, hh.2⟩
          · cases hm
      · rintro ⟨y, hy, hyp, hyf⟩
        cases hy
        right
        rw [if_pos ⟨by rw [← hp]; exact hyp, hyf⟩]; simp
    · rw [if_neg hdc]
      constructor
      · rintro (hm | hm)
        · exact hm
        · split at hm
          · simp at hm; exact absurd hm.symm hdc
          · cases hm
      · intro hm; exact Or.inl hm
  · show (s.cells.set c x').countP _ = s.allocated
    rw [List.countP_set hc, hxe, hp, ← h.alloc]
    have : 0 < s.cells.countP (·.pooled) ∨ x.pooled = false := by
      cases hpp : x.pooled
      · right; rfl
      · left; rw [List.countP_pos_iff]; exact ⟨x, List.mem_of_getElem? hx, hpp⟩
    cases hpp : x.pooled
    · simp
    · rw [hpp] at this
      simp only [if_true]
      rcases this with this | this
      · omega
      · cases this
  · show (s.free ++ f).length + (s.cells.set c x').countP _ = s.allocated
    rw [List.countP_set hc, hxe, hp, ← h.used, hfr, List.length_append, hf]
    have : 0 < s.cells.countP (fun x => x.pooled && !x.freed) ∨ x.pooled = false := by
      cases hpp : x.pooled
      · right; rfl
      · left; rw [List.countP_pos_iff]; exact ⟨x, List.mem_of_getElem? hx, by simp [hpp, hf]⟩
    generalize s.cells.countP (fun x => x.pooled && !x.freed) = k at this ⊢
    cases hpp : x.pooled <;> cases hff : x'.freed
    · simp
    · simp
    · rw [hpp] at this; simp at this ⊢; omega
    · rw [hpp] at this; simp at this ⊢; omega
  · exact h.le

/-- add one at `c` -/
def bump (a : Nat → Nat) (c : Nat) : Nat → Nat := upd a c (a c + 1)

/-- take one away at `c` -/
def drop1 (a : Nat → Nat) (c : Nat) : Nat → Nat := upd a c (a c - 1)

/-- nothing but reference counts, the log and the free list differ, and objects stay where they are -/
structure Same (s s' : State) : Prop where
  shared : s'.shared = s.shared
  weak : s'.weak = s.weak
  next : s'.next = s.next
  allocated : s'.allocated = s.allocated
  maxBlocks : s'.maxBlocks = s.maxBlocks
  waterMark : s'.waterMark = s.waterMark
  warned : s'.warned = s.warned
  cells : ∀ c : Nat, (s'.cells[c]?).map (fun x : Cell => (x.obj, x.pooled)) = (s.cells[c]?).map (fun x : Cell => (x.obj, x.pooled))

theorem same_change {s : State} {c : Nat} {x x' : Cell} (hx : s.cells[c]? = some x) (ho : x'.obj = x.obj)
    (hp : x'.pooled = x.pooled) (l f : List Nat) : Same s (change s c x' l f) := by
  refine ⟨rfl, rfl, rfl, rfl, rfl, rfl, rfl, fun d => ?_⟩
  show ((s.cells.set c x')[d]?).map _ = _
  rw [getElem?_set' hx]
  by_cases h : c = d
  · subst h; rw [if_pos rfl, hx]; simp [ho, hp]
  · rw [if_neg h]

theorem getCell_live {s : State} {a b : Nat → Nat} (h : Inv s a b) {c : Nat} (hc : 0 < a c + b c) :
    ∃ x, s.cells[c]? = some x ∧ getCell s c = some x ∧ x.freed = false ∧ CellOk x (a c) (b c) := by
  have hl := h.held c hc
  have hx : s.cells[c]? = some s.cells[c] := List.getElem?_eq_getElem hl
  have hk := h.cell c _ hx
  have hf : s.cells[c].freed = false := by
    rw [hk.freed]
    have : ¬ (a c = 0 ∧ b c = 0) := by omega
    simp only [this, decide_false]
  refine ⟨_, hx, ?_, hf, hk⟩
  unfold getCell
  rw [hx]
  simp [hf]

theorem setCell_change (s : State) (c : Nat) (x : Cell) : setCell s c x = change s c x [] [] := by
  simp [setCell, change]

theorem inv_incCount {s : State} {a b : Nat → Nat} (h : Inv s a b) {c : Nat} (hc : 0 < a c) :
    ∃ s', incCount s c = some s' ∧ Same s s' ∧ Inv s' (bump a c) b := by
  obtain ⟨x, hx, hg, hf, hk⟩ := getCell_live h (show 0 < a c + b c by omega)
  refine ⟨setCell s c { x with count := x.count + 1 }, by unfold incCount; rw [hg], ?_⟩
  rw [setCell_change]
  refine ⟨same_change hx (by rfl) (by rfl) _ _, inv_change h hx (by rfl) (by rfl) hf ?_ ?_ ?_ ?_ ?_⟩
  · have : bump a c c = a c + 1 := by unfold bump; rw [upd_same]
    rw [this]
    constructor
    · show x.freed = _; rw [hf]; simp
    · exact hk.wp
    · show x.count + 1 = _; rw [hk.count, if_neg (by omega)]; simp
    · show x.pNull = _; rw [hk.pNull]; simp; intro; omega
  · intro d hd; exact ⟨by unfold bump; rw [upd_other _ _ hd], rfl⟩
  · intro _; exact hc
  · rw [if_neg]; unfold bump; rw [upd_same]; omega
  · rw [if_neg]; rw [show ({ x with count := x.count + 1 } : Cell).freed = x.freed from rfl, hf]; simp

theorem inv_incWp {s : State} {a b : Nat → Nat} (h : Inv s a b) {c : Nat} (hc : 0 < a c + b c) :
    ∃ s', incWp s c = some s' ∧ Same s s' ∧ Inv s' a (bump b c) := by
  obtain ⟨x, hx, hg, hf, hk⟩ := getCell_live h hc
  refine ⟨setCell s c { x with wp := x.wp + 1 }, by unfold incWp; rw [hg], ?_⟩
  rw [setCell_change]
  refine ⟨same_change hx (by rfl) (by rfl) _ _, inv_change h hx (by rfl) (by rfl) hf ?_ ?_ ?_ ?_ ?_⟩
  · have : bump b c c = b c + 1 := by unfold bump; rw [upd_same]
    rw [this]
    constructor
    · show x.freed = _; rw [hf]; simp
    · show x.wp + 1 = _; rw [hk.wp]; simp
    · exact hk.count
    · exact hk.pNull
  · intro d hd; exact ⟨rfl, by unfold bump; rw [upd_other _ _ hd]⟩
  · exact id
  · rw [if_neg]; omega
  · rw [if_neg]; rw [show ({ x with wp := x.wp + 1 } : Cell).freed = x.freed from rfl, hf]; simp

/-- the value of `ref_count` after a release -/
def after (x : Cell) : Cell :=
  let y := if x.count = 0 then { x with count := -1, pNull := x.pNull || !x.pooled } else x
  if y.count ≤ 0 ∧ y.wp = 0 then { y with freed := true } else y

theorem set_set (s : State) (c : Nat) (x y : Cell) (l f l' f' : List Nat) :
    change (change s c x l f) c y l' f' = change s c y (l ++ l') (f ++ f') := by
  simp [change, List.set_set, List.append_assoc]

/-- a release, computed -/
theorem release_eq {s : State} {c : Nat} {x : Cell} (hx : getCell s c = some x) (hroom : s.free.length < s.maxBlocks ∨ x.pooled = false)
    (hpn : x.count = 0 → x.pNull = false) :
    release s c = some (change s c (after x) (if x.count = 0 then [x.obj] else [])
      (if x.pooled ∧ (x.count ≤ 0 ∧ x.wp = 0) then [c] else []), decide (x.count ≤ 0 ∧ x.wp = 0)) := by
  have hx' : s.cells[c]? = some x ∧ x.freed = false := by
    unfold getCell at hx
    split at hx
    · rename_i y hy
      split at hx
      · cases hx
      · cases hx; rename_i hh; exact ⟨hy, by simpa using hh⟩
    · cases hx
  have hself : s.cells.set c x = s.cells := by
    apply List.ext_getElem?
    intro d
    rw [getElem?_set' hx'.1]
    by_cases h : c = d
    · subst h; rw [if_pos rfl]; exact hx'.1.symm
    · rw [if_neg h]
  unfold release
  rw [hx]
  dsimp only
  unfold endObject after
  by_cases h0 : x.count = 0
  · have hpn' := hpn h0
    by_cases hp : x.pooled = true
    · rcases hroom with hroom | hroom
      · unfold endCell
        by_cases hw : x.wp = 0
        · simp [h0, hp, hw, setCell, change, List.set_set, hroom, hpn']
        · simp [h0, hp, hw, setCell, change, hpn']
      · rw [hroom] at hp; cases hp
    · have hp : x.pooled = false := by simpa using hp
      unfold endCell
      by_cases hw : x.wp = 0
      · simp [h0, hp, hw, setCell, change, List.set_set, hpn']
      · simp [h0, hp, hw, setCell, change, hpn']
  · unfold endCell
    by_cases hc : x.count ≤ 0 ∧ x.wp = 0
    · by_cases hp : x.pooled = true
      · rcases hroom with hroom | hroom
        · simp [h0, hp, hc, setCell, change, hroom]
        · rw [hroom] at hp; cases hp
      · have hp : x.pooled = false := by simpa using hp
        simp [h0, hp, hc, setCell, change]
    · simp only [h0, if_false, hc, and_false, decide_false]
      unfold change
      rw [hself]
      simp

/-- a block in use leaves room in the free list -/
theorem room {s : State} {a b : Nat → Nat} (h : Inv s a b) {c : Nat} {x : Cell} (hx : s.cells[c]? = some x) (hf : x.freed = false) :
    s.free.length < s.maxBlocks ∨ x.pooled = false := by
  cases hp : x.pooled
  · right; rfl
  · left
    have : 0 < s.cells.countP (fun x => x.pooled && !x.freed) := by
      rw [List.countP_pos_iff]; exact ⟨x, List.mem_of_getElem? hx, by simp [hp, hf]⟩
    have := h.used
    have := h.le
    omega

theorem getCell_set {s : State} {c : Nat} {x y : Cell} (hx : s.cells[c]? = some x) (hf : y.freed = false) :
    getCell (setCell s c y) c = some y := by
  unfold getCell setCell
  dsimp only
  rw [getElem?_set' hx, if_pos rfl]
  simp [hf]

theorem inv_dropCount {s : State} {a b : Nat → Nat} (h : Inv s a b) {c : Nat} (hc : 0 < a c) :
    ∃ s' d, dropCount s c = some (s', d) ∧ Same s s' ∧ Inv s' (drop1 a c) b ∧ (d = true ↔ a c = 1 ∧ b c = 0) := by
  obtain ⟨x, hx, hg, hf, hk⟩ := getCell_live h (show 0 < a c + b c by omega)
  have hcount : x.count = a c := by rw [hk.count, if_neg (by omega)]
  have hpn : x.pNull = false := by rw [hk.pNull]; have : a c ≠ 0 := by omega
                                   simp [this]
  have hr := release_eq (s := setCell s c { x with count := x.count - 1 }) (c := c) (getCell_set hx hf)
    (show s.free.length < s.maxBlocks ∨ x.pooled = false from room h hx hf) (fun _ => hpn)
  have hd : drop1 a c c = a c - 1 := by unfold drop1; rw [upd_same]
  unfold dropCount
  rw [hg]
  dsimp only
  rw [hr]
  refine ⟨_, _, rfl, ?_⟩
  rw [setCell_change, set_set]
  dsimp only
  rw [hcount]
  have hwp := hk.wp
  have e1 : (after { x with count := (a c : Int) - 1 }).obj = x.obj := by unfold after; dsimp only; split <;> split <;> rfl
  have e2 : (after { x with count := (a c : Int) - 1 }).pooled = x.pooled := by unfold after; dsimp only; split <;> split <;> rfl
  have hfr : (after { x with count := (a c : Int) - 1 }).freed = decide (a c = 1 ∧ b c = 0) := by
    unfold after
    by_cases h1 : a c = 1
    · simp [h1, hwp]
      by_cases hb : b c = 0 <;> simp [hb, hf]
    · have n1 : ¬ ((a c : Int) - 1 = 0) := by omega
      have n2 : ¬ ((a c : Int) - 1 ≤ 0) := by omega
      simp [n1, n2, h1, hf]
  refine ⟨same_change hx e1 e2 _ _, inv_change h hx e1 e2 hf ?_ ?_ ?_ ?_ ?_, ?_⟩
  · rw [hd]
    constructor
    · rw [hfr]; apply decide_eq_decide.mpr; omega
    · rw [← hwp]; unfold after; dsimp only; split <;> split <;> rfl
    · unfold after
      by_cases h1 : a c = 1
      · simp [h1]; split <;> rfl
      · have n1 : ¬ ((a c : Int) - 1 = 0) := by omega
        have n2 : ¬ ((a c : Int) - 1 ≤ 0) := by omega
        have n3 : ¬ (a c - 1 = 0) := by omega
        simp [n1, n2, n3]; omega
    · rw [e2]
      unfold after
      by_cases h1 : a c = 1
      · simp [h1, hpn]; split <;> rfl
      · have n1 : ¬ ((a c : Int) - 1 = 0) := by omega
        have n2 : ¬ ((a c : Int) - 1 ≤ 0) := by omega
        have n3 : ¬ (a c - 1 = 0) := by omega
        simp [n1, n2, n3, hpn]
  · intro d hd'; exact ⟨by unfold drop1; rw [upd_other _ _ hd'], rfl⟩
  · intro _; exact hc
  · rw [hd]
    have : ((a c : Int) - 1 = 0) ↔ (0 < a c ∧ a c - 1 = 0) := by omega
    simp [this]
  · rw [hfr]
    have : ((a c : Int) - 1 ≤ 0 ∧ x.wp = 0) ↔ (a c = 1 ∧ b c = 0) := by rw [hwp]; omega
    simp [this]
  · rw [decide_eq_true_iff, hwp]; omega

theorem inv_dropWp {s : State} {a b : Nat → Nat} (h : Inv s a b) {c : Nat} (hc : 0 < b c) :
    ∃ s' d, dropWp s c = some (s', d) ∧ Same s s' ∧ Inv s' a (drop1 b c) ∧ (d = true ↔ a c = 0 ∧ b c = 1) := by
  obtain ⟨x, hx, hg, hf, hk⟩ := getCell_live h (show 0 < a c + b c by omega)
  have hwp := hk.wp
  have hne : x.count ≠ 0 := by rw [hk.count]; split <;> omega
  have hle : x.count ≤ 0 ↔ a c = 0 := by rw [hk.count]; split <;> omega
  have hr := release_eq (s := setCell s c { x with wp := x.wp - 1 }) (c := c) (getCell_set hx hf)
    (show s.free.length < s.maxBlocks ∨ x.pooled = false from room h hx hf) (fun h0 => absurd h0 hne)
  have hd : drop1 b c c = b c - 1 := by unfold drop1; rw [upd_same]
  unfold dropWp
  rw [hg]
  dsimp only
  rw [hr]
  refine ⟨_, _, rfl, ?_⟩
  rw [setCell_change, set_set]
  dsimp only
  have ea : after { x with wp := x.wp - 1 } = { x with wp := x.wp - 1, freed := decide (a c = 0 ∧ b c = 1) } := by
    unfold after
    have : (x.wp - 1 = 0) ↔ b c = 1 := by omega
    simp only [hne, if_false, hle, this]
    by_cases hh : a c = 0 ∧ b c = 1
    · simp [hh]
    · simp only [hh, if_false, decide_false, ← hf]
  rw [ea]
  refine ⟨same_change hx (by rfl) (by rfl) _ _, inv_change h hx (by rfl) (by rfl) hf ?_ ?_ ?_ ?_ ?_, ?_⟩
  · rw [hd]
    constructor
    · show decide _ = decide _; apply decide_eq_decide.mpr; omega
    · show x.wp - 1 = _; omega
    · exact hk.count
    · exact hk.pNull
  · intro d hd'; exact ⟨rfl, by unfold drop1; rw [upd_other _ _ hd']⟩
  · exact id
  · rw [if_neg hne, if_neg (by omega)]; rfl
  · have : (x.count ≤ 0 ∧ x.wp - 1 = 0) ↔ (a c = 0 ∧ b c = 1) := by rw [hle]; omega
    simp only [this, decide_eq_true_eq]
    rfl
  · rw [decide_eq_true_iff, hle]; omega

theorem inv_newCell {s : State} {a b : Nat → Nat} (h : Inv s a b) (pooled : Bool) (n : Nat)
    (hn : n = if pooled then s.allocated + 1 else s.allocated) (hm : n ≤ s.maxBlocks) :
    Inv { newCell s pooled with allocated := n } (upd a s.cells.length 1) b := by
  have hb : b s.cells.length = 0 := by
    apply Nat.eq_zero_of_not_pos; intro hb; have := h.held s.cells.length (by omega); omega
  have hget : ∀ d, (s.cells ++ [⟨1, 0, s.next, false, pooled, false⟩])[d]? =
      if d = s.cells.length then some (⟨1, 0, s.next, false, pooled, false⟩ : Cell) else s.cells[d]? := by
    intro d
    by_cases hd : d = s.cells.length
    · subst hd; simp
    · rw [if_neg hd]
      by_cases hlt : d < s.cells.length
      · rw [List.getElem?_append_left hlt]
      · rw [List.getElem?_eq_none (by simp; omega), List.getElem?_eq_none (by omega)]
  have hne : ∀ {d y}, s.cells[d]? = some y → d ≠ s.cells.length := by
    intro d y hy; have := (List.getElem?_eq_some_iff.mp hy).1; omega
  have hlog0 : s.log.count s.next = 0 := by
    rw [List.count_eq_zero]; intro hm'; have := h.logs _ hm'; omega
  constructor
  · intro d hd
    show d < (s.cells ++ [_]).length
    simp
    by_cases hdl : d = s.cells.length
    · omega
    · rw [upd_other _ _ hdl] at hd
      have := h.held d hd; omega
  · intro d y hy
    replace hy : (s.cells ++ [_])[d]? = some y := hy
    rw [hget] at hy
    split at hy
    · rename_i hd; subst hd; cases hy
      rw [upd_same, hb]
      exact ⟨by simp, by simp, by simp, by simp⟩
    · rename_i hd; rw [upd_other _ _ hd]; exact h.cell d y hy
  · intro d y hy
    replace hy : (s.cells ++ [_])[d]? = some y := hy
    show y.obj < s.next + 1 ∧ s.log.count y.obj = _
    rw [hget] at hy
    split at hy
    · rename_i hd; subst hd; cases hy
      rw [upd_same]
      exact ⟨by simp, by simpa using hlog0⟩
    · rename_i hd; rw [upd_other _ _ hd]
      have := h.objs d y hy
      exact ⟨by omega, this.2⟩
  · intro d e y z hy hz hyz
    replace hy : (s.cells ++ [_])[d]? = some y := hy
    replace hz : (s.cells ++ [_])[e]? = some z := hz
    rw [hget] at hy hz
    split at hy <;> split at hz
    · omega
    · cases hy; have := (h.objs e z hz).1; simp at hyz; omega
    · cases hz; have := (h.objs d y hy).1; simp at hyz; omega
    · exact h.inj d e y z hy hz hyz
  · intro o ho
    replace ho : o < s.next + 1 := ho
    by_cases hoe : o = s.next
    · left
      refine ⟨s.cells.length, ⟨1, 0, s.next, false, pooled, false⟩, ?_, hoe.symm⟩
      show (s.cells ++ [_])[_]? = _
      rw [hget, if_pos rfl]
    · rcases h.past o (by omega) with ⟨d, y, hy, hyo⟩ | hl
      · left
        refine ⟨d, y, ?_, hyo⟩
        show (s.cells ++ [_])[d]? = _
        rw [hget, if_neg (hne hy)]; exact hy
      · right; exact hl
  · intro o ho; have := h.logs o ho; show o < s.next + 1; omega
  · exact h.freeNodup
  · intro d
    show d ∈ s.free ↔ ∃ y : Cell, (s.cells ++ [_])[d]? = some y ∧ _
    rw [h.freeMem]
    constructor
    · rintro ⟨y, hy, h1, h2⟩
      exact ⟨y, by rw [hget, if_neg (hne hy)]; exact hy, h1, h2⟩
    · rintro ⟨y, hy, h1, h2⟩
      rw [hget] at hy
      split at hy
      · cases hy; cases h2
      · exact ⟨y, hy, h1, h2⟩
  · show (s.cells ++ [_]).countP _ = n
    rw [List.countP_append, h.alloc, hn]; cases pooled <;> simp
  · show s.free.length + (s.cells ++ [_]).countP _ = n
    rw [List.countP_append, hn, ← h.used]; cases pooled <;> simp <;> omega
  · exact hm

/-- a block of the pool is used again -/
theorem inv_reuse {s : State} {a b : Nat → Nat} (h : Inv s a b) {c : Nat} {x : Cell} (hx : s.cells[c]? = some x)
    (hfree : s.free.getLast? = some c) :
    Inv { setCell s c { x with count := 1, obj := s.next, freed := false } with free := s.free.dropLast, next := s.next + 1 }
      (upd a c 1) b ∧ a c = 0 ∧ b c = 0 ∧ x.pooled = true ∧ x.pNull = false := by
  have hne : s.free ≠ [] := by intro e; rw [e] at hfree; cases hfree
  have hsplit : s.free = s.free.dropLast ++ [c] := by
    have h1 := List.dropLast_concat_getLast hne
    have h2 : s.free.getLast hne = c := by
      rw [List.getLast?_eq_some_getLast hne] at hfree; exact Option.some.inj hfree
    rw [h2] at h1; exact h1.symm
  have hmem : c ∈ s.free := by rw [hsplit]; simp
  have hnd := h.freeNodup
  rw [hsplit, List.nodup_append] at hnd
  have hnotin : c ∉ s.free.dropLast := fun hm => hnd.2.2 c hm c (by simp) rfl
  obtain ⟨y, hy, hyp, hyf⟩ := (h.freeMem c).mp hmem
  rw [hx] at hy; cases hy
  have hk := h.cell c x hx
  have hz : a c = 0 ∧ b c = 0 := by
    have := hk.freed; rw [hyf] at this; exact of_decide_eq_true this.symm
  have hc : c < s.cells.length := (List.getElem?_eq_some_iff.mp hx).1
  have hxe : s.cells[c] = x := (List.getElem?_eq_some_iff.mp hx).2
  have hget := getElem?_set' (x' := { x with count := 1, obj := s.next, freed := false }) hx
  have hlog0 : s.log.count s.next = 0 := by
    rw [List.count_eq_zero]; intro hm'; have := h.logs _ hm'; omega
  have hpn : x.pNull = false := by rw [hk.pNull, hyp]; rfl
  refine ⟨?_, hz.1, hz.2, hyp, hpn⟩
  constructor
  · intro d hd
    show d < (s.cells.set c _).length
    rw [List.length_set]
    by_cases hdl : d = c
    · omega
    · rw [upd_other _ _ hdl] at hd
      exact h.held d hd
  · intro d y hy
    replace hy : (s.cells.set c _)[d]? = some y := hy
    rw [hget] at hy
    split at hy
    · rename_i hd; subst hd; cases hy
      rw [upd_same]
      refine ⟨by simp, hk.wp, by simp, ?_⟩
      show x.pNull = _; rw [hpn]; simp
    · rename_i hd; rw [upd_other _ _ (fun e => hd e.symm)]; exact h.cell d y hy
  · intro d y hy
    replace hy : (s.cells.set c _)[d]? = some y := hy
    show y.obj < s.next + 1 ∧ s.log.count y.obj = _
    rw [hget] at hy
    split at hy
    · rename_i hd; subst hd; cases hy
      rw [upd_same]
      exact ⟨by simp, by simpa using hlog0⟩
    · rename_i hd; rw [upd_other _ _ (fun e => hd e.symm)]
      have := h.objs d y hy
      exact ⟨by omega, this.2⟩
  · intro d e y z hy hz' hyz
    replace hy : (s.cells.set c _)[d]? = some y := hy
    replace hz' : (s.cells.set c _)[e]? = some z := hz'
    rw [hget] at hy hz'
    split at hy <;> split at hz'
    · omega
    · cases hy; have := (h.objs e z hz').1; simp at hyz; omega
    · cases hz'; have := (h.objs d y hy).1; simp at hyz; omega
    · exact h.inj d e y z hy hz' hyz
  · intro o ho
    replace ho : o < s.next + 1 := ho
    by_cases hoe : o = s.next
    · left
      refine ⟨c, { x with count := 1, obj := s.next, freed := false }, ?_, hoe.symm⟩
      show (s.cells.set c _)[_]? = _
      rw [hget, if_pos rfl]
    · rcases h.past o (by omega) with ⟨d, y, hy, hyo⟩ | hl
      · by_cases hdc : c = d
        · subst hdc
          rw [hx] at hy; cases hy
          right
          show s.log.count o = 1
          have := (h.objs c x hx).2
          rw [if_pos hz.1, hyo] at this; exact this
        · left
          refine ⟨d, y, ?_, hyo⟩
          show (s.cells.set c _)[d]? = _
          rw [hget, if_neg hdc]; exact hy
      · right; exact hl
  · intro o ho; have := h.logs o ho; show o < s.next + 1; omega
  · exact hnd.1
  · intro d
    show d ∈ s.free.dropLast ↔ ∃ y : Cell, (s.cells.set c _)[d]? = some y ∧ _
    rw [hget]
    have hm := h.freeMem d
    rw [hsplit, List.mem_append] at hm
    by_cases hdc : c = d
    · subst hdc
      rw [if_pos rfl]
      constructor
      · intro hd; exact absurd hd hnotin
      · rintro ⟨y, hy', _, h2⟩; cases hy'; cases h2
    · rw [if_neg hdc, ← hm]
      constructor
      · exact Or.inl
      · rintro (h1 | h1)
        · exact h1
        · simp at h1; exact absurd h1.symm hdc
  · show (s.cells.set c _).countP _ = s.allocated
    rw [List.countP_set hc, hxe, ← h.alloc]
    have : 0 < s.cells.countP (·.pooled) := by
      rw [List.countP_pos_iff]; exact ⟨x, List.mem_of_getElem? hx, hyp⟩
    simp [hyp]; omega
  · show s.free.dropLast.length + (s.cells.set c _).countP _ = s.allocated
    rw [List.countP_set hc, hxe, ← h.used]
    have : s.free.length = s.free.dropLast.length + 1 := by
      have := congrArg List.length hsplit; simpa using this
    simp [hyp, hyf]; omega
  · exact h.le

end Sparta.SharedPtr
