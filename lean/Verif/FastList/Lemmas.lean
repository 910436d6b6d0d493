import Verif.FastList.Spec
/-! Helper lemmas for FastList. -/
namespace Sparta.FastList
variable {α : Type}

/-- the nodes represent the list `items` and the free stack -/
structure Rep (l : L α) (s : Spec α) : Prop where
  cap : l.cap = s.cap
  size : l.size = s.items.length
  next : ∀ i a, s.ids[i]? = some a → l.next a = s.ids[i + 1]?
  prev : ∀ i a, s.ids[i]? = some a → l.prev a = if i = 0 then none else s.ids[i - 1]?
  first : l.first = s.ids[0]?
  last : l.last = s.ids[s.ids.length - 1]?
  val : ∀ p ∈ s.items, l.val p.1 = some p.2
  fhead : l.freeHead = s.free[0]?
  fnext : ∀ i a, s.free[i]? = some a → l.next a = s.free[i + 1]?
  nodup : s.ids.Nodup
  fnodup : s.free.Nodup
  disj : ∀ a, a ∈ s.ids → a ∈ s.free → False
  lt : ∀ a, a ∈ s.ids ∨ a ∈ s.free → a < s.cap
  len : s.ids.length + s.free.length = s.cap

theorem nodup_idx {l : List Nat} (h : l.Nodup) {i j a : Nat} (hi : l[i]? = some a) (hj : l[j]? = some a) :
    i = j := by
  obtain ⟨hi', e1⟩ := List.getElem?_eq_some_iff.1 hi
  obtain ⟨hj', e2⟩ := List.getElem?_eq_some_iff.1 hj
  exact nodup_getElem_inj h hi' hj' (e1.trans e2.symm)

theorem ins_get {l : List Nat} {i f : Nat} (hi : i ≤ l.length) (j : Nat) :
    (l.insertIdx i f)[j]? = if j < i then l[j]? else if j = i then some f else l[j - 1]? := by
  rw [List.getElem?_insertIdx]
  split
  · rfl
  · split
    · rename_i h; subst h; simp [hi]
    · rfl

theorem insertIdx_split {β : Type} {l : List β} (x : β) {i : Nat} (hi : i ≤ l.length) :
    l.insertIdx i x = l.take i ++ x :: l.drop i := by
  induction l generalizing i with
  | nil => have : i = 0 := by simpa using hi
           subst this; rfl
  | cons a l ih =>
    cases i with
    | zero => rfl
    | succ i => simp only [List.insertIdx_succ_cons, List.take_succ_cons, List.drop_succ_cons, List.cons_append]
                rw [ih (by simpa using hi)]

theorem ids_insert (s : Spec α) (i f : Nat) (x : α) :
    (s.items.insertIdx i (f, x)).map Prod.fst = s.ids.insertIdx i f := by
  unfold Spec.ids
  apply List.ext_getElem?
  intro j
  simp only [List.getElem?_map, List.getElem?_insertIdx, List.length_map]
  split
  · rfl
  · split
    · split <;> simp
    · rfl

theorem Rep.init {n : Nat} {l : L α} (h : L.init α n = some l) : Rep l (Spec.init α n) := by
  unfold L.init at h
  split at h
  · rename_i hn
    obtain rfl := (Option.some.inj h).symm
    refine ⟨rfl, rfl, ?_, ?_, rfl, rfl, ?_, ?_, ?_, ?_, ?_, ?_, ?_, ?_⟩
    all_goals simp [Spec.init, Spec.ids]
    · rw [List.getElem?_range (by omega)]
    · intro i a hi
      obtain ⟨h1, h2⟩ := List.getElem?_eq_some_iff.1 hi
      simp only [List.getElem_range] at h2
      simp only [List.length_range] at h1
      subst h2
      by_cases e : i + 1 = n
      · rw [List.getElem?_eq_none (by simp; omega)]; simp [e]
      · rw [List.getElem?_range (by omega)]; simp [e]
    · exact List.nodup_range
  · cases h


theorem erase_next (l : L α) (a j : Nat) (h1 : l.next a ≠ some a) (h2 : l.prev a ≠ some a) :
    (l.erase a).1.next j = if j = a then l.freeHead else if l.prev a = some j then l.next a else l.next j := by
  cases hn : l.next a <;> cases hp : l.prev a <;> cases hf : l.freeHead <;>
    simp_all [L.erase, L.kill, L.unhookEnds, L.unhookNext, L.unhookPrev, L.free, upd] <;> grind

theorem erase_prev (l : L α) (a j : Nat) (h1 : l.next a ≠ some a) (h2 : l.prev a ≠ some a) (h3 : j ≠ a)
    (h4 : l.freeHead ≠ some j) :
    (l.erase a).1.prev j = if l.next a = some j then l.prev a else l.prev j := by
  cases hn : l.next a <;> cases hp : l.prev a <;> cases hf : l.freeHead <;>
    simp_all [L.erase, L.kill, L.unhookEnds, L.unhookNext, L.unhookPrev, L.free, upd] <;> grind

theorem erase_rest (l : L α) (a : Nat) :
    (l.erase a).1.cap = l.cap ∧ (l.erase a).1.size = l.size - 1 ∧ (l.erase a).1.freeHead = some a
      ∧ (l.erase a).1.first = (if l.first = some a then l.next a else l.first)
      ∧ (l.erase a).1.last = (if l.last = some a then l.prev a else l.last)
      ∧ (l.erase a).1.val = upd l.val a none ∧ (l.erase a).2 = l.next a := by
  simp only [L.erase, L.kill, L.unhookEnds, L.unhookNext, L.unhookPrev, L.free]
  cases hn : l.next a <;> cases hp : l.prev a <;> cases hf : l.freeHead <;> simp <;> grind

/-- erase of the element at place `k` -/
theorem Rep.erase {l : L α} {s : Spec α} (r : Rep l s) (k a : Nat) (hk : s.ids[k]? = some a) :
    Rep (l.erase a).1 (s.removeAt k) ∧ (l.erase a).2 = s.ids[k + 1]? := by
  have hn := r.next k a hk
  have hp := r.prev k a hk
  have inj : ∀ {i j a : Nat}, s.ids[i]? = some a → s.ids[j]? = some a → i = j := fun h h' => nodup_idx r.nodup h h'
  have hna : l.next a ≠ some a := by
    rw [hn]; intro h; have := inj hk h; omega
  have hpa : l.prev a ≠ some a := by
    rw [hp]; intro h; split at h
    · cases h
    · have := inj hk h; omega
  have hal : k < s.ids.length := (List.getElem?_eq_some_iff.1 hk).1
  have ham : a ∈ s.ids := List.mem_of_getElem? hk
  have hlen : s.ids.length = s.items.length := by simp [Spec.ids]
  obtain ⟨e1, e2, e3, e4, e5, e6, e7⟩ := erase_rest l a
  have hids : (s.removeAt k).ids = s.ids.eraseIdx k := by
    simp only [Spec.removeAt, Spec.ids]
    apply List.ext_getElem?
    intro j
    simp only [List.getElem?_map, List.getElem?_eraseIdx]
    split <;> rfl
  have hfree : (s.removeAt k).free = a :: s.free := by simp [Spec.removeAt, hk]
  have hcap : (s.removeAt k).cap = s.cap := rfl
  have hitems : (s.removeAt k).items = s.items.eraseIdx k := rfl
  have hsub : ∀ x, x ∈ s.ids.eraseIdx k → x ∈ s.ids ∧ x ≠ a := by
    intro x hx
    obtain ⟨i, hi⟩ := List.getElem?_of_mem hx
    rw [List.getElem?_eraseIdx] at hi
    split at hi
    · refine ⟨List.mem_of_getElem? hi, ?_⟩
      rintro rfl; have := inj hk hi; omega
    · refine ⟨List.mem_of_getElem? hi, ?_⟩
      rintro rfl; have := inj hk hi; omega
  refine ⟨?_, by rw [e7, hn]⟩
  constructor
  · rw [e1, r.cap, hcap]
  · rw [e2, r.size, hitems, List.length_eraseIdx, if_pos (by omega)]
  · intro i x hx
    rw [hids] at hx ⊢
    have := hsub x (List.mem_of_getElem? hx)
    rw [erase_next l a x hna hpa, if_neg this.2, hp, hn]
    simp only [List.getElem?_eraseIdx] at hx ⊢
    split at hx
    · rw [r.next i x hx]
      by_cases e : i + 1 = k
      · rw [if_neg (show k ≠ 0 by omega), if_pos (show s.ids[k - 1]? = some x by rw [← hx]; congr 1; omega),
          if_neg (by omega), e]
      · rw [if_pos (show i + 1 < k by omega), if_neg]
        intro h
        rw [if_neg (by omega)] at h
        have := inj hx h; omega
    · rw [r.next _ x hx, if_neg (show ¬ i + 1 < k by omega), if_neg]
      intro h
      split at h
      · cases h
      · have := inj hx h; omega
  · intro i x hx
    rw [hids] at hx ⊢
    have := hsub x (List.mem_of_getElem? hx)
    rw [erase_prev l a x hna hpa this.2, hn, hp]
    · simp only [List.getElem?_eraseIdx] at hx ⊢
      split at hx
      · rw [r.prev i x hx, if_neg, if_pos (show i - 1 < k by omega)]
        intro h
        have := inj hx h; omega
      · rw [r.prev _ x hx, if_neg (show i + 1 ≠ 0 by omega)]
        by_cases e : i = k
        · subst e
          rw [if_pos hx]
          by_cases e0 : i = 0
          · simp [e0]
          · simp [e0, show i - 1 < i by omega]
        · rw [if_neg, if_neg (show i ≠ 0 by omega), if_neg (by omega)]
          · congr 1; omega
          · intro h; have := inj hx h; omega
    · intro hf
      rw [r.fhead] at hf
      exact r.disj x this.1 (List.mem_of_getElem? hf)
  · rw [e4, r.first, hn, hids, List.getElem?_eraseIdx]
    grind
  · rw [e5, r.last, hp, hids, List.getElem?_eraseIdx, List.length_eraseIdx]
    grind
  · intro p hpm
    rw [hitems] at hpm
    rw [e6]
    have : p.1 ∈ s.ids.eraseIdx k := by
      rw [← hids]; exact List.mem_map_of_mem hpm
    rw [upd_other _ _ (hsub _ this).2]
    exact r.val p (List.mem_of_mem_eraseIdx hpm)
  · rw [e3, hfree]; rfl
  · intro i x hx
    rw [hfree] at hx ⊢
    rw [erase_next l a x hna hpa]
    cases i with
    | zero =>
      simp only [List.getElem?_cons_zero, Option.some.injEq] at hx
      subst hx
      simp [r.fhead]
    | succ i =>
      simp only [List.getElem?_cons_succ] at hx ⊢
      have hxm := List.mem_of_getElem? hx
      have hxa : x ≠ a := by rintro rfl; exact r.disj x ham hxm
      rw [if_neg hxa, if_neg, r.fnext i x hx]
      rw [hp]; split
      · simp
      · intro h; exact r.disj x (List.mem_of_getElem? h) hxm
  · rw [hids]; exact r.nodup.eraseIdx k
  · rw [hfree]; exact List.nodup_cons.2 ⟨fun h => r.disj a ham h, r.fnodup⟩
  · intro x h1 h2
    rw [hids] at h1; rw [hfree] at h2
    rcases List.mem_cons.1 h2 with h | h
    · exact (hsub x h1).2 h
    · exact r.disj x (hsub x h1).1 h
  · intro x h
    rw [hids, hfree] at h
    rw [hcap]
    rcases h with h | h
    · exact r.lt x (Or.inl (hsub x h).1)
    · rcases List.mem_cons.1 h with h | h
      · subst h; exact r.lt x (Or.inl ham)
      · exact r.lt x (Or.inr h)
  · rw [hids, hfree, List.length_eraseIdx, if_pos hal, List.length_cons, hcap]
    have := r.len; omega

/-- closed form of the three ways of inserting: the new node `f` goes between `p` and `q` -/
structure Inserted (l l' : L α) (f : Nat) (x : α) (p q : Option Nat) : Prop where
  cap : l'.cap = l.cap
  size : l'.size = l.size + 1
  fhead : l'.freeHead = l.next f
  first : l'.first = if p = none then some f else l.first
  last : l'.last = if q = none then some f else l.last
  val : l'.val = upd l.val f (some x)
  next : ∀ j, l'.next j = if j = f then q else if p = some j then some f else l.next j
  prev : ∀ j, l'.prev j = if j = f then p else if q = some j then some f else l.prev j

theorem emplaceFront_ins (l : L α) (f : Nat) (x : α) (h : l.freeHead = some f) (h1 : l.first ≠ some f)
    (h2 : l.first = none ↔ l.last = none) :
    ∃ l', l.emplaceFront x = some (l', some f) ∧ Inserted l l' f x none l.first := by
  unfold L.emplaceFront
  rw [h]
  refine ⟨_, rfl, ?_⟩
  cases hf : l.first <;> cases hl : l.last <;> simp_all
  all_goals constructor <;> simp_all [L.alloc, upd] <;> grind

theorem emplaceBack_ins (l : L α) (f : Nat) (x : α) (h : l.freeHead = some f) (h1 : l.last ≠ some f)
    (h2 : l.first = none ↔ l.last = none) :
    ∃ l', l.emplaceBack x = some (l', some f) ∧ Inserted l l' f x l.last none := by
  unfold L.emplaceBack
  rw [h]
  refine ⟨_, rfl, ?_⟩
  cases hf : l.first <;> cases hl : l.last <;> simp_all
  all_goals constructor <;> simp_all [L.alloc, upd] <;> grind

theorem emplace_ins (l : L α) (f k : Nat) (x : α) (h : l.freeHead = some f) (h1 : k ≠ f)
    (h2 : l.first = some k ↔ l.prev k = none) (h3 : l.first ≠ none) (h4 : l.prev k ≠ some k)
    (h5 : l.prev k ≠ some f) :
    ∃ l', l.emplace (some k) x = some (l', some f) ∧ Inserted l l' f x (l.prev k) (some k) := by
  unfold L.emplace
  have h1' : ¬ f = k := fun e => h1 e.symm
  simp only [h, Option.map_some]
  refine ⟨_, rfl, ?_⟩
  cases hf : l.first <;> cases hl : l.prev k <;> simp_all
  all_goals constructor <;> simp_all [L.alloc, upd] <;> grind

/-- inserting at place `i` -/
theorem Rep.insert {l l' : L α} {s : Spec α} (r : Rep l s) (i f : Nat) (fs : List Nat) (x : α)
    (hi : i ≤ s.ids.length) (hf : s.free = f :: fs)
    (ins : Inserted l l' f x (if i = 0 then none else s.ids[i - 1]?) s.ids[i]?) :
    Rep l' (s.insertAt i x).1 := by
  have inj : ∀ {i j a : Nat}, s.ids[i]? = some a → s.ids[j]? = some a → i = j := fun h h' => nodup_idx r.nodup h h'
  have hlen : s.ids.length = s.items.length := by simp [Spec.ids]
  have hfm : f ∈ s.free := by rw [hf]; simp
  have hfn : f ∉ s.ids := fun h => r.disj f h hfm
  have hne : ∀ {j a : Nat}, s.ids[j]? = some a → a ≠ f := by
    rintro j a h rfl; exact hfn (List.mem_of_getElem? h)
  have hspec : (s.insertAt i x).1 = { s with items := s.items.insertIdx i (f, x), free := fs } := by
    simp [Spec.insertAt, hf]
  have hfs := List.nodup_cons.1 (hf ▸ r.fnodup)
  rw [hspec]
  have hids : (Spec.ids { s with items := s.items.insertIdx i (f, x), free := fs }) = s.ids.insertIdx i f :=
    ids_insert s i f x
  have hmem : ∀ a, a ∈ s.ids.insertIdx i f → a = f ∨ a ∈ s.ids := by
    intro a ha; exact (List.mem_insertIdx hi).1 ha
  constructor
  · rw [ins.cap, r.cap]
  · show _ = (s.items.insertIdx i (f, x)).length
    rw [ins.size, r.size, List.length_insertIdx, if_pos (by omega)]
  · intro j a hj
    rw [hids] at hj ⊢
    rw [ins.next]
    simp only [List.getElem?_insertIdx] at hj ⊢
    by_cases h1 : j < i
    · rw [if_pos h1] at hj
      rw [if_neg (hne hj), r.next j a hj]
      by_cases h2 : j + 1 = i
      · subst h2
        simp [hj, hi]
      · rw [if_neg, if_pos (by omega)]
        intro h
        split at h
        · cases h
        · have := inj hj h; omega
    · by_cases h2 : j = i
      · subst h2
        simp only [Nat.lt_irrefl, if_false, if_true, hi, Option.some.injEq] at hj
        subst hj
        simp
        intro h; omega
      · rw [if_neg h1, if_neg h2] at hj
        rw [if_neg (hne hj), if_neg, r.next _ a hj, if_neg (by omega), if_neg (by omega)]
        · congr 1; omega
        · intro h
          split at h
          · cases h
          · have := inj hj h; omega
  · intro j a hj
    rw [hids] at hj ⊢
    rw [ins.prev]
    simp only [List.getElem?_insertIdx] at hj ⊢
    by_cases h1 : j < i
    · rw [if_pos h1] at hj
      rw [if_neg (hne hj), if_neg, r.prev j a hj, if_pos (show j - 1 < i by omega)]
      intro h; have := inj hj h; omega
    · by_cases h2 : j = i
      · subst h2
        simp only [Nat.lt_irrefl, if_false, if_true, hi, Option.some.injEq] at hj
        subst hj
        rw [if_pos rfl]
        by_cases h0 : j = 0
        · simp [h0]
        · simp [h0, show j - 1 < j by omega]
      · rw [if_neg h1, if_neg h2] at hj
        rw [if_neg (hne hj), r.prev _ a hj, if_neg (show j ≠ 0 by omega)]
        by_cases h3 : j = i + 1
        · subst h3
          rw [if_pos (by simpa using hj)]
          simp [hi]
        · rw [if_neg, if_neg (by omega), if_neg (by omega), if_neg (by omega)]
          intro h; have := inj hj h; omega
  · rw [ins.first, hids, r.first, List.getElem?_insertIdx]
    by_cases h0 : i = 0
    · subst h0; simp
    · rw [if_neg, if_pos (by omega)]
      rw [if_neg h0]
      simp; omega
  · rw [ins.last, hids, r.last, List.getElem?_insertIdx, List.length_insertIdx, if_pos hi]
    by_cases h0 : i = s.ids.length
    · subst h0; simp
    · rw [if_neg, if_neg (by omega), if_neg (by omega)]
      · congr 1
      · simp; omega
  · intro p hp
    rw [ins.val]
    rcases (List.mem_insertIdx (by omega)).1 hp with h | h
    · subst h; simp
    · rw [upd_other]
      · exact r.val p h
      · intro e; exact hfn (e ▸ List.mem_map_of_mem h)
  · show _ = fs[0]?
    rw [ins.fhead, r.fnext 0 f (by rw [hf]; rfl), hf]; rfl
  · intro j a hj
    have hj' : fs[j]? = some a := hj
    have ham : a ∈ fs := List.mem_of_getElem? hj'
    show _ = fs[j + 1]?
    rw [ins.next, if_neg, if_neg, r.fnext (j + 1) a (by rw [hf]; simpa using hj'), hf]
    · rfl
    · intro h
      split at h
      · cases h
      · exact r.disj a (List.mem_of_getElem? h) (by rw [hf]; simp [ham])
    · rintro rfl; exact hfs.1 ham
  · rw [hids]
    apply List.pairwise_iff_getElem.2
    intro j k hj hk hjk e
    have h1 : (s.ids.insertIdx i f)[j]? = some (s.ids.insertIdx i f)[j] := List.getElem?_eq_getElem hj
    have h2 : (s.ids.insertIdx i f)[k]? = some (s.ids.insertIdx i f)[j] := by
      rw [e]; exact List.getElem?_eq_getElem hk
    generalize (s.ids.insertIdx i f)[j] = y at h1 h2
    rw [ins_get hi] at h1 h2
    split at h1 <;> split at h2
    · have := inj h1 h2; omega
    · split at h2
      · simp only [Option.some.injEq] at h2; exact hne h1 h2.symm
      · have := inj h1 h2; omega
    · omega
    · split at h1 <;> split at h2
      · omega
      · simp only [Option.some.injEq] at h1; exact hne h2 h1.symm
      · simp only [Option.some.injEq] at h2; exact hne h1 h2.symm
      · have := inj h1 h2; omega
  · exact hfs.2
  · intro a h1 h2
    rw [hids] at h1
    have h2' : a ∈ fs := h2
    rcases hmem a h1 with h | h
    · subst h; exact hfs.1 h2'
    · exact r.disj a h (by rw [hf]; simp [h2'])
  · intro a h
    show a < s.cap
    rcases h with h | h
    · rw [hids] at h
      rcases hmem a h with h | h
      · subst h; exact r.lt a (Or.inr hfm)
      · exact r.lt a (Or.inl h)
    · have : a ∈ fs := h
      exact r.lt a (Or.inr (by rw [hf]; simp [this]))
  · rw [hids, List.length_insertIdx, if_pos hi]
    have := r.len
    rw [hf, List.length_cons] at this
    show _ + fs.length = s.cap
    omega

theorem Rep.hds {l : L α} {s : Spec α} (r : Rep l s) : l.first = none ↔ l.last = none := by
  rw [r.first, r.last]
  simp only [List.getElem?_eq_none_iff]
  omega

theorem Rep.pushFront {l : L α} {s : Spec α} (r : Rep l s) (x : α) :
    Rep (l.step (.pushFront x)).1 (s.step (.pushFront x)).1
      ∧ (l.step (.pushFront x)).2 = (s.step (.pushFront x)).2 := by
  have hfh := r.fhead
  simp only [L.step, Spec.step]
  cases hf : s.free with
  | nil =>
    rw [hf] at hfh
    simp only [List.getElem?_nil] at hfh
    simpa [L.emplaceFront, hfh, Spec.insertAt, hf] using r
  | cons f fs =>
    rw [hf] at hfh
    obtain ⟨l', h1, h2⟩ := emplaceFront_ins l f x hfh
      (by rw [r.first]; intro h; exact r.disj f (List.mem_of_getElem? h) (by simp [hf])) r.hds
    rw [h1]
    refine ⟨r.insert 0 f fs x (by omega) hf (by rw [r.first] at h2; simpa using h2), ?_⟩
    simp [Spec.insertAt, hf]

theorem Rep.pushBack {l : L α} {s : Spec α} (r : Rep l s) (x : α) :
    Rep (l.step (.pushBack x)).1 (s.step (.pushBack x)).1
      ∧ (l.step (.pushBack x)).2 = (s.step (.pushBack x)).2 := by
  have hfh := r.fhead
  have hlen : s.ids.length = s.items.length := by simp [Spec.ids]
  simp only [L.step, Spec.step]
  cases hf : s.free with
  | nil =>
    rw [hf] at hfh
    simp only [List.getElem?_nil] at hfh
    simpa [L.emplaceBack, hfh, Spec.insertAt, hf] using r
  | cons f fs =>
    rw [hf] at hfh
    obtain ⟨l', h1, h2⟩ := emplaceBack_ins l f x hfh
      (by rw [r.last]; intro h; exact r.disj f (List.mem_of_getElem? h) (by simp [hf])) r.hds
    rw [h1]
    refine ⟨r.insert s.items.length f fs x (by omega) hf ?_, ?_⟩
    · rw [r.last] at h2
      rw [← hlen, List.getElem?_eq_none (Nat.le_refl _)]
      by_cases h0 : s.ids.length = 0
      · rw [if_pos h0]
        rw [List.getElem?_eq_none (by omega)] at h2; exact h2
      · rw [if_neg h0]; exact h2
    · simp [Spec.insertAt, hf]

theorem place_get {s : Spec α} {k : Nat} (h : k ∈ s.ids) : s.ids[s.place k]? = some k := by
  unfold Spec.place
  have hlt := List.idxOf_lt_length_of_mem h
  rw [List.getElem?_eq_getElem hlt, List.getElem_idxOf]

theorem Rep.insertBefore {l : L α} {s : Spec α} (r : Rep l s) (k : Nat) (x : α) (hk : k ∈ s.ids) :
    Rep (l.step (.insert (some k) x)).1 (s.step (.insert (some k) x)).1
      ∧ (l.step (.insert (some k) x)).2 = (s.step (.insert (some k) x)).2 := by
  have hfh := r.fhead
  have hp := place_get hk
  have hplt := (List.getElem?_eq_some_iff.1 hp).1
  have hpv := r.prev _ k hp
  simp only [L.step, Spec.step]
  cases hf : s.free with
  | nil =>
    rw [hf] at hfh
    simp only [List.getElem?_nil] at hfh
    simpa [L.emplace, hfh, Spec.insertAt, hf] using r
  | cons f fs =>
    rw [hf] at hfh
    have hfm : f ∈ s.free := by simp [hf]
    obtain ⟨l', h1, h2⟩ := emplace_ins l f k x hfh (by rintro rfl; exact r.disj k hk hfm)
      (by
        rw [hpv, r.first]
        constructor
        · intro h; have := nodup_idx r.nodup h hp; simp [← this]
        · intro h; split at h
          · rename_i h0; rw [h0] at hp; exact hp
          · rw [List.getElem?_eq_none_iff] at h; omega)
      (by rw [r.first, Ne, List.getElem?_eq_none_iff]; omega)
      (by rw [hpv]; split
          · simp
          · intro h; have := nodup_idx r.nodup h hp; omega)
      (by rw [hpv]; split
          · simp
          · intro h; exact r.disj f (List.mem_of_getElem? h) hfm)
    rw [h1]
    refine ⟨r.insert (s.place k) f fs x (by omega) hf ?_, ?_⟩
    · rw [hpv] at h2; rw [hp]; exact h2
    · simp [Spec.insertAt, hf]

theorem clearLoop_spec (fuel : Nat) {l : L α} {s : Spec α} (r : Rep l s) (hf : s.items.length ≤ fuel) :
    Rep (L.clearLoop fuel l l.first) { s with items := [], free := s.ids.reverse ++ s.free } := by
  induction fuel generalizing l s with
  | zero =>
    have h0 : s.items = [] := List.length_eq_zero_iff.1 (by omega)
    have : ({ s with items := [], free := s.ids.reverse ++ s.free } : Spec α) = s := by
      cases s; simp_all [Spec.ids]
    rw [this]; unfold L.clearLoop; exact r
  | succ fuel ih =>
    have hfst := r.first
    cases hi : s.items with
    | nil =>
      have : ({ s with items := [], free := s.ids.reverse ++ s.free } : Spec α) = s := by
        cases s; simp_all [Spec.ids]
      rw [this]
      have : l.first = none := by rw [hfst]; simp [Spec.ids, hi]
      rw [this]; unfold L.clearLoop; exact r
    | cons p ps =>
      have hids : s.ids = p.1 :: ps.map Prod.fst := by simp [Spec.ids, hi]
      have h0 : s.ids[0]? = some p.1 := by rw [hids]; rfl
      rw [h0] at hfst
      rw [hfst]
      unfold L.clearLoop
      have re := (r.erase 0 p.1 h0).1
      have hnf : l.next p.1 = (l.erase p.1).1.first := by
        rw [(erase_rest l p.1).2.2.2.1, hfst, if_pos rfl]
      rw [hnf]
      have hrem : s.removeAt 0 = { s with items := ps, free := p.1 :: s.free } := by
        simp [Spec.removeAt, hi, h0]
      rw [hrem] at re
      have := ih re (by simp only; rw [hi] at hf; simpa using hf)
      simp only [Spec.ids] at this
      simp only [Spec.ids, hi, List.map_cons, List.reverse_cons, List.append_assoc, List.singleton_append]
      exact this

theorem Rep.step {l : L α} {s : Spec α} (r : Rep l s) (o : Op α) (ok : s.legal o) :
    Rep (l.step o).1 (s.step o).1 ∧ (l.step o).2 = (s.step o).2 := by
  have hlen : s.ids.length = s.items.length := by simp [Spec.ids]
  cases o with
  | pushFront x => exact r.pushFront x
  | pushBack x => exact r.pushBack x
  | insert p x =>
    cases p with
    | none => exact r.pushBack x
    | some k => exact r.insertBefore k x ok
  | erase k =>
    have h := place_get (s := s) ok
    obtain ⟨h1, h2⟩ := r.erase _ k h
    exact ⟨h1, by simp [L.step, Spec.step, h2]⟩
  | popFront =>
    simp only [L.step, Spec.step, L.popFront, r.first]
    by_cases h : s.items = []
    · simpa [h, Spec.ids] using r
    · have h0 : 0 < s.items.length := List.length_pos_iff.2 h
      have hg : s.ids[0]? = some s.ids[0] := List.getElem?_eq_getElem (by omega)
      simp only [hg, Option.map_some, h, if_false]
      exact ⟨(r.erase 0 _ hg).1, trivial⟩
  | popBack =>
    simp only [L.step, Spec.step, L.popBack, r.last]
    by_cases h : s.items = []
    · simpa [h, Spec.ids] using r
    · have h0 : 0 < s.items.length := List.length_pos_iff.2 h
      obtain ⟨a, hg⟩ : ∃ a, s.ids[s.items.length - 1]? = some a := ⟨_, List.getElem?_eq_getElem (by omega)⟩
      simp only [hlen, hg, Option.map_some, h, if_false]
      exact ⟨(r.erase _ _ hg).1, trivial⟩
  | clear =>
    refine ⟨?_, rfl⟩
    have h : s.items.length ≤ l.cap := by rw [r.cap, ← r.len]; omega
    exact clearLoop_spec l.cap r h

theorem Rep.run {l : L α} {s : Spec α} (r : Rep l s) (os : List (Op α))
    (ok : legalOps Spec.step Spec.legal s os) :
    Rep (runOps L.step l os).1 (runOps Spec.step s os).1
      ∧ (runOps L.step l os).2 = (runOps Spec.step s os).2 :=
  runOps_simulation_legal L.step Spec.step Spec.legal Rep (fun _ _ o r h => r.step o h) l s r os ok

theorem Rep.walk {l : L α} {s : Spec α} (r : Rep l s) (fuel i : Nat) (h : s.items.length ≤ i + fuel) :
    l.walk fuel s.ids[i]? = (s.items.drop i).map (fun p => (p.1, some p.2)) := by
  have hlen : s.ids.length = s.items.length := by simp [Spec.ids]
  induction fuel generalizing i with
  | zero => rw [List.drop_eq_nil_of_le (by omega)]; unfold L.walk; rfl
  | succ fuel ih =>
    by_cases hi : i < s.items.length
    · have hg : s.ids[i]? = some s.items[i].1 := by
        simp [Spec.ids, List.getElem?_eq_getElem hi]
      rw [hg]
      unfold L.walk
      rw [r.next i _ hg, ih (i + 1) (by omega), r.val _ (List.getElem_mem hi), List.drop_eq_getElem_cons hi]
      rfl
    · rw [List.getElem?_eq_none (by omega), List.drop_eq_nil_of_le (by omega)]
      unfold L.walk; rfl

theorem Rep.contents {l : L α} {s : Spec α} (r : Rep l s) :
    l.contents = s.items.map (fun p => (p.1, some p.2)) := by
  unfold L.contents
  rw [r.first, r.walk l.cap 0 (by
    have : s.ids.length = s.items.length := by simp [Spec.ids]
    rw [r.cap, ← r.len]; omega), List.drop_zero]

end Sparta.FastList
