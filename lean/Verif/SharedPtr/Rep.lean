import Verif.SharedPtr.Lemmas
namespace Sparta.SharedPtr

/-! ### counting pointers in a list of variables -/

/-- the number of variables that refer to `c` -/
def cnt (l : List (Option (Option Nat))) (c : Nat) : Nat := l.count (some (some c))

def bumpO (a : Nat → Nat) : Option Nat → Nat → Nat
  | none => a
  | some c => bump a c

def dropO (a : Nat → Nat) : Option Nat → Nat → Nat
  | none => a
  | some c => drop1 a c

theorem bump_apply (a : Nat → Nat) (c d : Nat) : bump a c d = a d + if c = d then 1 else 0 := by
  unfold bump
  by_cases h : d = c
  · subst h; rw [upd_same]; simp
  · rw [upd_other _ _ h, if_neg (fun e => h e.symm)]; rfl

theorem drop1_apply (a : Nat → Nat) (c d : Nat) : drop1 a c d = a d - if c = d then 1 else 0 := by
  unfold drop1
  by_cases h : d = c
  · subst h; rw [upd_same]; simp
  · rw [upd_other _ _ h, if_neg (fun e => h e.symm)]; rfl

theorem dropO_bumpO (a : Nat → Nat) (v : Option Nat) : dropO (bumpO a v) v = a := by
  cases v with
  | none => rfl
  | some c =>
    funext d
    show drop1 (bump a c) c d = a d
    rw [drop1_apply, bump_apply]; omega

theorem bumpO_dropO (a : Nat → Nat) (v : Option Nat) (h : ∀ c, v = some c → 0 < a c) : bumpO (dropO a v) v = a := by
  cases v with
  | none => rfl
  | some c =>
    have := h c rfl
    funext d
    show bump (drop1 a c) c d = a d
    rw [bump_apply, drop1_apply]
    by_cases hd : c = d
    · subst hd; simp; omega
    · simp [hd]

theorem alive_lt {l : List (Option (Option Nat))} {i : Nat} (h : alive l i) : i < l.length := by
  apply Nat.lt_of_not_le
  intro hle
  apply h
  rw [List.getD_eq_getElem?_getD, List.getElem?_eq_none hle]; rfl

theorem alive_get {l : List (Option (Option Nat))} {i : Nat} (h : alive l i) : l[i]'(alive_lt h) = some (var l i) := by
  have hl := alive_lt h
  unfold alive at h
  unfold var
  rw [List.getD_eq_getElem?_getD, List.getElem?_eq_getElem hl] at *
  simp at *
  cases hq : l[i] with
  | none => exact absurd hq h
  | some o => rfl

theorem cnt_push (l : List (Option (Option Nat))) (v : Option Nat) : cnt (l ++ [some v]) = bumpO (cnt l) v := by
  funext d
  unfold cnt
  rw [List.count_append]
  cases v with
  | none => simp [bumpO]
  | some c =>
    show _ = bump _ c d
    rw [bump_apply, List.count_singleton]
    by_cases h : c = d <;> simp [h]

theorem cnt_set_null {l : List (Option (Option Nat))} {i : Nat} (h : alive l i) :
    cnt (l.set i (some none)) = dropO (cnt l) (var l i) := by
  funext d
  unfold cnt
  rw [List.count_set (alive_lt h), alive_get h]
  cases var l i with
  | none => simp [dropO]
  | some c =>
    show _ = drop1 _ c d
    rw [drop1_apply]
    by_cases h : c = d <;> simp [h]

theorem cnt_set_dead {l : List (Option (Option Nat))} {i : Nat} (h : alive l i) :
    cnt (l.set i none) = dropO (cnt l) (var l i) := by
  funext d
  unfold cnt
  rw [List.count_set (alive_lt h), alive_get h]
  cases var l i with
  | none => simp [dropO]
  | some c =>
    show _ = drop1 _ c d
    rw [drop1_apply]
    by_cases h : c = d <;> simp [h]

theorem cnt_fill {l : List (Option (Option Nat))} {i : Nat} (h : i < l.length) (v : Option Nat) :
    cnt (l.set i (some v)) = bumpO (cnt (l.set i (some none))) v := by
  funext d
  have key : cnt (l.set i (some v)) d = cnt (l.set i (some none)) d + if v = some d then 1 else 0 := by
    unfold cnt
    rw [List.count_set h, List.count_set h]
    by_cases hv : v = some d <;> simp [hv]
  rw [key]
  cases v with
  | none => simp [bumpO]
  | some c =>
    show _ = bump _ c d
    rw [bump_apply]
    by_cases h : c = d <;> simp [h]

theorem cnt_pos {l : List (Option (Option Nat))} {i c : Nat} (h : alive l i) (hv : var l i = some c) : 0 < cnt l c := by
  unfold cnt
  rw [List.count_pos_iff]
  have := alive_get h
  rw [hv] at this
  rw [← this]
  exact List.getElem_mem _

theorem cnt_pos_of_var {l : List (Option (Option Nat))} {i c : Nat} (hv : var l i = some c) : 0 < cnt l c := by
  apply cnt_pos (i := i) ?_ hv
  intro h
  unfold var at hv
  rw [h] at hv
  cases hv

theorem var_set_other {l : List (Option (Option Nat))} {i j : Nat} (h : i ≠ j) (v : Option (Option Nat)) :
    var (l.set i v) j = var l j := by
  unfold var
  rw [List.getD_eq_getElem?_getD, List.getElem?_set_ne h, ← List.getD_eq_getElem?_getD]

theorem var_set_same {l : List (Option (Option Nat))} {i : Nat} (h : i < l.length) (v : Option Nat) :
    var (l.set i (some v)) i = v := by
  unfold var
  rw [List.getD_eq_getElem?_getD, List.getElem?_set_self h]; rfl

theorem alive_set_other {l : List (Option (Option Nat))} {i j : Nat} (h : i ≠ j) (v : Option (Option Nat)) :
    alive (l.set i v) j ↔ alive l j := by
  unfold alive
  rw [List.getD_eq_getElem?_getD, List.getElem?_set_ne h, ← List.getD_eq_getElem?_getD]

theorem alive_set_same {l : List (Option (Option Nat))} {i : Nat} (h : i < l.length) (v : Option Nat) :
    alive (l.set i (some v)) i := by
  unfold alive
  rw [List.getD_eq_getElem?_getD, List.getElem?_set_self h]; simp

/-! ### objects -/

def objOf (s : State) (c : Nat) : Nat := (s.cells[c]?.map (·.obj)).getD 0

/-- the object a variable refers to -/
def tr (s : State) : Option (Option Nat) → Option (Option Nat) := Option.map (Option.map (objOf s))

theorem var_map (s : State) (l : List (Option (Option Nat))) (i : Nat) : var (l.map (tr s)) i = (var l i).map (objOf s) := by
  unfold var
  rw [List.getD_eq_getElem?_getD, List.getD_eq_getElem?_getD, List.getElem?_map]
  rcases l[i]? with _ | _ | _ | c <;> rfl

theorem alive_map (s : State) (l : List (Option (Option Nat))) (i : Nat) : alive (l.map (tr s)) i ↔ alive l i := by
  unfold alive
  rw [List.getD_eq_getElem?_getD, List.getD_eq_getElem?_getD, List.getElem?_map]
  rcases l[i]? with _ | _ | _ | c <;> simp [tr]

/-- the state fits what the program sees -/
structure Rep (s : State) (t : Spec) : Prop where
  inv : Inv s (cnt s.shared) (cnt s.weak)
  shared : t.shared = s.shared.map (tr s)
  weak : t.weak = s.weak.map (tr s)
  next : t.next = s.next
  maxBlocks : t.maxBlocks = s.maxBlocks
  waterMark : t.waterMark = s.waterMark
  warned : t.warned = s.warned
  peak : t.peak = s.allocated
  pool : ∀ (c : Nat) (x : Cell), s.cells[c]? = some x → (x.pooled = true ↔ x.obj ∈ t.pool)
  poolNodup : t.pool.Nodup
  poolLt : ∀ o ∈ t.pool, o < t.next

theorem inv_vars {s : State} {a b : Nat → Nat} (h : Inv s a b) (sh wk : List (Option (Option Nat))) (w : Bool) :
    Inv { s with shared := sh, weak := wk, warned := w } a b :=
  ⟨h.held, h.cell, h.objs, h.inj, h.past, h.logs, h.freeNodup, h.freeMem, h.alloc, h.used, h.le⟩

theorem same_objOf {s s' : State} (h : Same s s') : objOf s' = objOf s := by
  funext c
  have := h.cells c
  unfold objOf
  have e := congrArg (Option.map Prod.fst) this
  simp only [Option.map_map] at e
  have e2 : ∀ o : Option Cell, o.map (Prod.fst ∘ fun x : Cell => (x.obj, x.pooled)) = o.map (·.obj) := by
    intro o; cases o <;> rfl
  rw [e2, e2] at e
  rw [e]

theorem rep_mk {s s1 : State} {t : Spec} (h : Rep s t) (hs : Same s s1) (sh wk : List (Option (Option Nat)))
    (hi : Inv s1 (cnt sh) (cnt wk)) :
    Rep { s1 with shared := sh, weak := wk } { t with shared := sh.map (tr s), weak := wk.map (tr s) } := by
  have htr : tr { s1 with shared := sh, weak := wk } = tr s := by
    unfold tr; rw [show objOf { s1 with shared := sh, weak := wk } = objOf s1 from rfl, same_objOf hs]
  constructor
  · exact inv_vars hi sh wk s1.warned
  · rw [htr]
  · rw [htr]
  · exact h.next.trans hs.next.symm
  · exact h.maxBlocks.trans hs.maxBlocks.symm
  · exact h.waterMark.trans hs.waterMark.symm
  · exact h.warned.trans hs.warned.symm
  · exact h.peak.trans hs.allocated.symm
  · intro c x hx
    have hc := hs.cells c
    rw [show s1.cells[c]? = some x from hx] at hc
    rcases hq : s.cells[c]? with _ | y
    · rw [hq] at hc; cases hc
    · rw [hq] at hc
      simp at hc
      rw [hc.1, hc.2]
      exact h.pool c y hq
  · exact h.poolNodup
  · exact h.poolLt

/-- only shared variables change -/
theorem rep_shared {s s1 : State} {t : Spec} (h : Rep s t) (hs : Same s s1) (sh : List (Option (Option Nat)))
    (hi : Inv s1 (cnt sh) (cnt s.weak)) (ts : List (Option (Option Nat))) (ht : ts = sh.map (tr s)) :
    Rep { s1 with shared := sh } { t with shared := ts } := by
  have := rep_mk h hs sh s.weak hi
  rw [← h.weak, ← ht, ← hs.weak] at this
  exact this

theorem rep_weak {s s1 : State} {t : Spec} (h : Rep s t) (hs : Same s s1) (wk : List (Option (Option Nat)))
    (hi : Inv s1 (cnt s.shared) (cnt wk)) (ts : List (Option (Option Nat))) (ht : ts = wk.map (tr s)) :
    Rep { s1 with weak := wk } { t with weak := ts } := by
  have := rep_mk h hs s.shared wk hi
  rw [← h.shared, ← ht, ← hs.shared] at this
  exact this

theorem same_refl (s : State) : Same s s := ⟨rfl, rfl, rfl, rfl, rfl, rfl, rfl, fun _ => rfl⟩

theorem incCount?_spec {s : State} {a b : Nat → Nat} (h : Inv s a b) (v : Option Nat) (hv : ∀ c, v = some c → 0 < a c) :
    ∃ s', incCount? s v = some s' ∧ Same s s' ∧ Inv s' (bumpO a v) b := by
  cases v with
  | none => exact ⟨s, rfl, same_refl s, h⟩
  | some c => exact inv_incCount h (hv c rfl)

theorem incWp?_spec {s : State} {a b : Nat → Nat} (h : Inv s a b) (v : Option Nat) (hv : ∀ c, v = some c → 0 < a c + b c) :
    ∃ s', incWp? s v = some s' ∧ Same s s' ∧ Inv s' a (bumpO b v) := by
  cases v with
  | none => exact ⟨s, rfl, same_refl s, h⟩
  | some c => exact inv_incWp h (hv c rfl)

theorem unlink_spec {s : State} {b : Nat → Nat} {i : Nat} (h : Inv s (cnt s.shared) b) (hi : alive s.shared i) :
    ∃ s1 sh, unlink s i = some { s1 with shared := sh } ∧ Same s s1 ∧
      (sh = s.shared ∨ sh = s.shared.set i (some none)) ∧ Inv s1 (cnt (s.shared.set i (some none))) b := by
  rw [cnt_set_null hi]
  unfold unlink
  cases hv : var s.shared i with
  | none => exact ⟨s, s.shared, rfl, same_refl s, Or.inl rfl, h⟩
  | some c =>
    obtain ⟨s', d, h1, h2, h3, _⟩ := inv_dropCount h (cnt_pos hi hv)
    dsimp only
    rw [h1]
    cases d with
    | true => exact ⟨s', _, rfl, h2, Or.inr (by rw [h2.shared]), h3⟩
    | false => exact ⟨s', s'.shared, rfl, h2, Or.inl h2.shared, h3⟩

theorem unlinkWeak_spec {s : State} {a : Nat → Nat} {i : Nat} (h : Inv s a (cnt s.weak)) (hi : alive s.weak i) :
    ∃ s1 wk, unlinkWeak s i = some { s1 with weak := wk } ∧ Same s s1 ∧
      ((wk = s.weak ∧ ∀ c, var s.weak i = some c → ¬ (a c = 0 ∧ cnt s.weak c = 1)) ∨
       (wk = s.weak.set i (some none) ∧ ∃ c, var s.weak i = some c ∧ a c = 0 ∧ cnt s.weak c = 1)) ∧
      Inv s1 a (cnt (s.weak.set i (some none))) := by
  rw [cnt_set_null hi]
  unfold unlinkWeak
  cases hv : var s.weak i with
  | none => exact ⟨s, s.weak, rfl, same_refl s, Or.inl ⟨rfl, by simp⟩, h⟩
  | some c =>
    obtain ⟨s', d, h1, h2, h3, h4⟩ := inv_dropWp h (cnt_pos hi hv)
    dsimp only
    rw [h1]
    cases d with
    | true => exact ⟨s', _, rfl, h2, Or.inr ⟨by rw [h2.weak], c, rfl, h4.mp rfl⟩, h3⟩
    | false =>
      refine ⟨s', s'.weak, rfl, h2, Or.inl ⟨h2.weak, ?_⟩, h3⟩
      intro c' hc' hh
      cases hc'
      have := h4.mpr hh
      cases this

/-! ### counting objects -/

theorem count_map_inj {α β : Type} [BEq α] [LawfulBEq α] [BEq β] [LawfulBEq β] (f : α → β) (l : List α) (v : α)
    (h : ∀ u ∈ l, f u = f v → u = v) : (l.map f).count (f v) = l.count v := by
  induction l with
  | nil => rfl
  | cons u l ih =>
    rw [List.map_cons, List.count_cons, List.count_cons, ih (fun w hw => h w (List.mem_cons_of_mem _ hw))]
    have := h u (by simp)
    by_cases hu : u = v
    · subst hu; simp
    · have hf : f u ≠ f v := fun e => hu (this e)
      rw [beq_eq_false_iff_ne.mpr hf, beq_eq_false_iff_ne.mpr hu]

/-- the variables refer to existing counts -/
theorem held_of_mem {s : State} {t : Spec} (h : Rep s t) {c : Nat}
    (hm : some (some c) ∈ s.shared ∨ some (some c) ∈ s.weak) : ∃ x, s.cells[c]? = some x ∧ x.freed = false := by
  have : 0 < cnt s.shared c + cnt s.weak c := by
    unfold cnt
    rcases hm with hm | hm
    · have := List.count_pos_iff.mpr hm; omega
    · have := List.count_pos_iff.mpr hm; omega
  obtain ⟨x, hx, _, hf, _⟩ := getCell_live h.inv this
  exact ⟨x, hx, hf⟩

theorem objOf_eq {s : State} {c : Nat} {x : Cell} (hx : s.cells[c]? = some x) : objOf s c = x.obj := by
  unfold objOf; rw [hx]; rfl

theorem count_tr {s : State} {t : Spec} (h : Rep s t) {c : Nat} {x : Cell} (hx : s.cells[c]? = some x)
    (l : List (Option (Option Nat))) (hl : ∀ d, some (some d) ∈ l → some (some d) ∈ s.shared ∨ some (some d) ∈ s.weak) :
    (l.map (tr s)).count (some (some x.obj)) = cnt l c := by
  have e : some (some x.obj) = tr s (some (some c)) := by simp [tr, objOf_eq hx]
  rw [e]
  apply count_map_inj
  intro u hu he
  rcases u with _ | _ | d
  · simp [tr] at he
  · simp [tr] at he
  · obtain ⟨y, hy, _⟩ := held_of_mem h (hl d hu)
    simp [tr, objOf_eq hx, objOf_eq hy] at he
    rw [h.inv.inj d c y x hy hx he]

theorem owners_eq {s : State} {t : Spec} (h : Rep s t) {c : Nat} {x : Cell} (hx : s.cells[c]? = some x) :
    owners t x.obj = cnt s.shared c := by
  unfold owners; rw [h.shared]; exact count_tr h hx _ (fun _ => Or.inl)

theorem watchers_eq {s : State} {t : Spec} (h : Rep s t) {c : Nat} {x : Cell} (hx : s.cells[c]? = some x) :
    watchers t x.obj = cnt s.weak c := by
  unfold watchers; rw [h.weak]; exact count_tr h hx _ (fun _ => Or.inr)

/-- an object that some pointer refers to is held by a live count -/
theorem held_obj {s : State} {t : Spec} (h : Rep s t) {o : Nat} (ho : 0 < owners t o + watchers t o) :
    ∃ (c : Nat) (x : Cell), s.cells[c]? = some x ∧ x.obj = o ∧ x.freed = false := by
  have key : ∀ l : List (Option (Option Nat)), 0 < (l.map (tr s)).count (some (some o)) → ∃ c, some (some c) ∈ l ∧ objOf s c = o := by
    intro l hl
    obtain ⟨v, hv, hvo⟩ := List.mem_map.mp (List.count_pos_iff.mp hl)
    rcases v with _ | _ | c
    · simp [tr] at hvo
    · simp [tr] at hvo
    · simp [tr] at hvo; exact ⟨c, hv, hvo⟩
  have : ∃ c, (some (some c) ∈ s.shared ∨ some (some c) ∈ s.weak) ∧ objOf s c = o := by
    by_cases h1 : 0 < owners t o
    · unfold owners at h1; rw [h.shared] at h1
      obtain ⟨c, h2, h3⟩ := key _ h1; exact ⟨c, Or.inl h2, h3⟩
    · have h1 : 0 < watchers t o := by omega
      unfold watchers at h1; rw [h.weak] at h1
      obtain ⟨c, h2, h3⟩ := key _ h1; exact ⟨c, Or.inr h2, h3⟩
  obtain ⟨c, hc, hco⟩ := this
  obtain ⟨x, hx, hf⟩ := held_of_mem h hc
  exact ⟨c, x, hx, by rw [← hco, objOf_eq hx], hf⟩

theorem objs_nodup {s : State} {a b : Nat → Nat} (h : Inv s a b) : (s.cells.map (·.obj)).Nodup := by
  rw [List.Nodup, List.pairwise_iff_getElem]
  intro i j hi hj hij he
  simp at hi hj he
  have := h.inj i j s.cells[i] s.cells[j] (List.getElem?_eq_getElem hi) (List.getElem?_eq_getElem hj) he
  omega

theorem freed_iff {s : State} {t : Spec} (h : Rep s t) {c : Nat} {x : Cell} (hx : s.cells[c]? = some x) :
    x.freed = false ↔ 0 < owners t x.obj + watchers t x.obj := by
  rw [owners_eq h hx, watchers_eq h hx, (h.inv.cell c x hx).freed, decide_eq_false_iff_not]
  omega

theorem inUse_eq {s : State} {t : Spec} (h : Rep s t) : inUse t = s.cells.countP (fun x => x.pooled && !x.freed) := by
  unfold inUse
  rw [List.countP_eq_length_filter, ← List.length_map (f := Cell.obj)]
  apply List.Perm.length_eq
  rw [List.perm_ext_iff_of_nodup]
  · intro o
    rw [List.mem_filter, List.mem_map]
    constructor
    · rintro ⟨ho, hh⟩
      obtain ⟨c, x, hx, hxo, hf⟩ := held_obj h (of_decide_eq_true hh)
      refine ⟨x, ?_, hxo⟩
      rw [List.mem_filter]
      refine ⟨List.mem_of_getElem? hx, ?_⟩
      have := (h.pool c x hx).mpr (by rw [hxo]; exact ho)
      simp [this, hf]
    · rintro ⟨x, hx, hxo⟩
      rw [List.mem_filter] at hx
      obtain ⟨hx, hp⟩ := hx
      simp at hp
      obtain ⟨c, hc, hcx⟩ := List.getElem_of_mem hx
      have hcell : s.cells[c]? = some x := by rw [List.getElem?_eq_getElem hc, hcx]
      subst hxo
      exact ⟨(h.pool c x hcell).mp hp.1, decide_eq_true ((freed_iff h hcell).mp hp.2)⟩
  · exact List.Nodup.sublist List.filter_sublist h.poolNodup
  · exact List.Nodup.sublist (List.Sublist.map _ List.filter_sublist) (objs_nodup h.inv)

theorem map_tr_new {s s1 : State} {c : Nat} (hoth : ∀ d : Nat, d ≠ c → s1.cells[d]? = s.cells[d]?)
    (l : List (Option (Option Nat))) (hl : cnt l c = 0) : l.map (tr s) = l.map (tr s1) := by
  apply List.map_congr_left
  intro v hv
  rcases v with _ | _ | d
  · rfl
  · rfl
  · have hd : d ≠ c := by
      intro e; subst e
      unfold cnt at hl
      rw [List.count_eq_zero] at hl
      exact hl hv
    simp only [tr, Option.map_some, objOf, hoth d hd]

/-- after a new object has appeared in a count to which no variable referred -/
theorem rep_new {s s1 : State} {t : Spec} (h : Rep s t) (c : Nat) (x : Cell) (hx : s1.cells[c]? = some x) (hxo : x.obj = s.next)
    (hoth : ∀ d : Nat, d ≠ c → s1.cells[d]? = s.cells[d]?) (hfree : cnt s.shared c = 0 ∧ cnt s.weak c = 0)
    (hwk : s1.weak = s.weak) (hn : s1.next = s.next + 1) (hm : s1.maxBlocks = s.maxBlocks)
    (hw : s1.waterMark = s.waterMark) (sh : List (Option (Option Nat))) (ts : List (Option (Option Nat)))
    (hts : ts = sh.map (tr s1)) (hinv : Inv s1 (cnt sh) (cnt s.weak)) :
    Rep { s1 with shared := sh }
      { t with shared := ts, next := t.next + 1, pool := if x.pooled then t.pool ++ [t.next] else t.pool,
               peak := s1.allocated, warned := s1.warned } := by
  constructor
  · have := inv_vars hinv sh s1.weak s1.warned
    rw [← hwk] at this
    exact this
  · exact hts
  · show t.weak = s1.weak.map (tr s1)
    rw [hwk, h.weak]
    exact map_tr_new hoth s.weak hfree.2
  · show t.next + 1 = s1.next; rw [hn, h.next]
  · exact h.maxBlocks.trans hm.symm
  · exact h.waterMark.trans hw.symm
  · rfl
  · rfl
  · intro d y hy
    replace hy : s1.cells[d]? = some y := hy
    have hlt : t.next ∉ t.pool := fun hm => by have := h.poolLt _ hm; omega
    show y.pooled = true ↔ y.obj ∈ (if x.pooled = true then t.pool ++ [t.next] else t.pool)
    by_cases hd : d = c
    · subst hd
      rw [hx] at hy; cases hy
      rw [hxo, ← h.next]
      by_cases hp : x.pooled = true
      · simp [hp]
      · simp [hp, hlt]
    · rw [hoth d hd] at hy
      have hy' := (h.inv.objs d y hy).1
      rw [← h.next] at hy'
      have hne : y.obj ≠ t.next := by omega
      rw [h.pool d y hy]
      split <;> simp [hne]
  · show (if x.pooled = true then t.pool ++ [t.next] else t.pool).Nodup
    split
    · rw [List.nodup_append]
      refine ⟨h.poolNodup, by simp, ?_⟩
      intro p hp q hq e
      simp at hq
      have := h.poolLt p hp
      omega
    · exact h.poolNodup
  · intro o ho
    replace ho : o ∈ (if x.pooled = true then t.pool ++ [t.next] else t.pool) := ho
    show o < t.next + 1
    split at ho
    · rcases List.mem_append.mp ho with ho | ho
      · have := h.poolLt o ho; omega
      · simp at ho; omega
    · have := h.poolLt o ho; omega

end Sparta.SharedPtr
