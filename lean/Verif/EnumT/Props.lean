import Verif.EnumT.Model
/-!
C245: names and values of an enumeration.
C246: histograms over enumerations.
-/
namespace Sparta.EnumT

/-- the enumeration after objects with these arguments were made; `none` if one of them used a value above `__LAST` -/
def after (first last : Nat) (args : List (List (Nat × String))) : Option En :=
  args.foldl (fun e a => e.bind fun e => e.setNames a) (some (En.init first last))

/-- the last name given to a value, if any -/
def given (args : List (List (Nat × String))) (v : Nat) : Option String := (args.flatten.filter fun x => x.1 == v).getLast?.map Prod.snd

/-- one object -/
theorem setNames_spec (a : List (Nat × String)) : ∀ (e e' : En), e.names.length = e.last + 1 → e.setNames a = some e' →
    e'.first = e.first ∧ e'.last = e.last ∧ e'.names.length = e.last + 1 ∧
    ∀ v, v < e.last → e'.names[v]? = match (a.filter fun x => x.1 == v).getLast?.map Prod.snd with | some s => some s | none => e.names[v]? := by
  induction a with
  | nil =>
    intro e e' hl h
    unfold En.setNames at h
    rw [if_pos (by omega)] at h
    rw [← Option.some.inj h]
    refine ⟨rfl, rfl, by rw [List.length_set]; exact hl, ?_⟩
    intro v hv
    show (List.set _ _ _)[v]? = e.names[v]?
    rw [List.getElem?_set_ne (by omega)]
  | cons x a ih =>
    obtain ⟨id, s⟩ := x
    intro e e' hl h
    unfold En.setNames at h
    by_cases hi : id < e.names.length
    · rw [if_pos hi] at h
      obtain ⟨h1, h2, h3, h4⟩ := ih { e with names := e.names.set id s } e' (by rw [List.length_set]; exact hl) h
      refine ⟨h1, h2, h3, ?_⟩
      intro v hv
      rw [h4 v hv]
      by_cases ev : id = v
      · have f : (((id, s) :: a).filter fun x => x.1 == v) = (id, s) :: a.filter fun x => x.1 == v := by
          rw [List.filter_cons, if_pos (by rw [ev]; exact beq_self_eq_true v)]
        rw [f, List.getLast?_cons]
        cases g : (a.filter fun x => x.1 == v).getLast? with
        | none =>
          show (e.names.set id s)[v]? = some s
          rw [ev, List.getElem?_set_self (by omega)]
        | some y => rfl
      · have f : (((id, s) :: a).filter fun x => x.1 == v) = a.filter fun x => x.1 == v := by
          rw [List.filter_cons, if_neg (by rw [beq_iff_eq]; exact ev)]
        rw [f]
        cases (a.filter fun x => x.1 == v).getLast? with
        | none =>
          show (e.names.set id s)[v]? = e.names[v]?
          rw [List.getElem?_set_ne ev]
        | some y => rfl
    · rw [if_neg hi] at h
      exact nomatch h

theorem foldl_none (args : List (List (Nat × String))) : args.foldl (fun e a => e.bind fun e => En.setNames e a) none = none := by
  induction args with
  | nil => rfl
  | cons a args ih => exact ih

theorem run_spec (args : List (List (Nat × String))) : ∀ (e e' : En), e.names.length = e.last + 1 →
    args.foldl (fun e a => e.bind fun e => e.setNames a) (some e) = some e' →
    e'.first = e.first ∧ e'.last = e.last ∧ e'.names.length = e.last + 1 ∧
    ∀ v, v < e.last → e'.names[v]? = match given args v with | some s => some s | none => e.names[v]? := by
  induction args with
  | nil =>
    intro e e' hl h
    rw [← Option.some.inj h]
    exact ⟨rfl, rfl, hl, fun v _ => rfl⟩
  | cons a args ih =>
    intro e e' hl h
    rw [List.foldl_cons] at h
    cases g : e.setNames a with
    | none =>
      rw [show (some e).bind (fun e => e.setNames a) = none from g, foldl_none] at h
      exact nomatch h
    | some e1 =>
      rw [show (some e).bind (fun e => e.setNames a) = some e1 from g] at h
      obtain ⟨a1, a2, a3, a4⟩ := setNames_spec a e e1 hl g
      obtain ⟨b1, b2, b3, b4⟩ := ih e1 e' (by rw [a3, a2]) h
      refine ⟨b1.trans a1, b2.trans a2, by rw [b3, a2], ?_⟩
      intro v hv
      rw [b4 v (by rw [a2]; exact hv), a4 v hv]
      unfold given
      rw [List.flatten_cons, List.filter_append, List.getLast?_append]
      cases (args.flatten.filter fun x => x.1 == v).getLast? with
      | none => rfl
      | some y => rfl

theorem after_spec {first last : Nat} {args : List (List (Nat × String))} {e : En} (h : after first last args = some e) :
    e.first = first ∧ e.last = last ∧ ∀ v, v < last → e.names[v]? = some ((given args v).getD "") := by
  obtain ⟨h1, h2, _, h4⟩ := run_spec args (En.init first last) e (List.length_replicate ..) h
  refine ⟨h1, h2, ?_⟩
  intro v hv
  rw [h4 v hv]
  cases given args v with
  | some s => rfl
  | none =>
    show (List.replicate (last + 1) "")[v]? = _
    rw [List.getElem?_replicate, if_pos (by omega)]
    rfl

/-- C245: the name of a value is the last one given to it, by whichever object, and empty if none was; all names are listed in the order of
their values -/
theorem C245_name {first last : Nat} {args : List (List (Nat × String))} {e : En} (h : after first last args = some e) :
    (∀ v, v < last → e.name v = some ((given args v).getD "")) ∧
    e.populate = (List.range last).map fun v => (given args v).getD "" := by
  obtain ⟨h1, h2, h3⟩ := after_spec h
  refine ⟨h3, ?_⟩
  unfold En.populate
  rw [h2]
  have : ∀ l : List Nat, (∀ v ∈ l, v < last) → (l.filterMap fun i => e.names[i]?) = l.map fun v => (given args v).getD "" := by
    intro l
    induction l with
    | nil => exact fun _ => rfl
    | cons a l ih =>
      intro hl
      rw [List.filterMap_cons, h3 a (hl a (List.mem_cons_self ..)), ih (fun v hv => hl v (List.mem_cons_of_mem _ hv)), List.map_cons]
  exact this _ (fun v hv => List.mem_range.1 hv)

example : (after 0 3 [[(0, "A"), (1, "B"), (2, "C")], [(1, "D")]]).map (fun e => (e.name 1, e.populate)) = some (some "D", ["A", "D", "C"]) := by
  decide +kernel

theorem search_spec (e : En) (s : String) (k : Nat) : ∀ i, (∀ v, e.search s k i = some v ↔ i ≤ v ∧ v < i + k ∧ e.names[v]? = some s ∧
    ∀ w, i ≤ w → w < v → e.names[w]? ≠ some s) ∧ (e.search s k i = none ↔ ∀ w, i ≤ w → w < i + k → e.names[w]? ≠ some s) := by
  induction k with
  | zero =>
    intro i
    exact ⟨fun v => ⟨fun h => (nomatch h), fun h => by omega⟩, fun _ w _ _ => by omega, fun _ => rfl⟩
  | succ k ih =>
    intro i
    obtain ⟨ih1, ih2⟩ := ih (i + 1)
    unfold En.search
    by_cases h : e.names[i]? = some s
    · rw [if_pos h]
      refine ⟨fun v => ⟨?_, ?_⟩, fun h => (nomatch h), fun g => absurd h (g i (Nat.le_refl _) (by omega))⟩
      · intro g
        rw [← Option.some.inj g]
        exact ⟨Nat.le_refl _, by omega, h, fun w _ _ => by omega⟩
      · rintro ⟨g1, _, _, g4⟩
        congr 1
        rcases Nat.lt_or_eq_of_le g1 with g | g
        · exact absurd h (g4 i (Nat.le_refl _) g)
        · exact g
    · rw [if_neg h]
      refine ⟨fun v => ?_, ?_⟩
      · rw [ih1 v]
        constructor
        · rintro ⟨g1, g2, g3, g4⟩
          refine ⟨by omega, by omega, g3, ?_⟩
          intro w hw1 hw2
          by_cases e1 : w = i
          · rw [e1]; exact h
          · exact g4 w (by omega) hw2
        · rintro ⟨g1, g2, g3, g4⟩
          have : v ≠ i := fun e1 => h (by rw [← e1]; exact g3)
          exact ⟨by omega, by omega, g3, fun w hw1 hw2 => g4 w (by omega) hw2⟩
      · rw [ih2]
        constructor
        · intro g w hw1 hw2
          by_cases e1 : w = i
          · rw [e1]; exact h
          · exact g w (by omega) (by omega)
        · exact fun g w hw1 hw2 => g w (by omega) (by omega)

/-- C245: a name gives the least value with it, and is refused exactly if no value has it -/
theorem C245_lookup {first last : Nat} {args : List (List (Nat × String))} {e : En} (h : after first last args = some e) (s : String) :
    (∀ v, e.ofName s = some v ↔ v < last ∧ (given args v).getD "" = s ∧ ∀ w, w < v → (given args w).getD "" ≠ s) ∧
    (e.ofName s = none ↔ ∀ v, v < last → (given args v).getD "" ≠ s) := by
  obtain ⟨_, h2, h3⟩ := after_spec h
  obtain ⟨g1, g2⟩ := search_spec e s e.last 0
  unfold En.ofName
  refine ⟨fun v => ?_, ?_⟩
  · rw [g1, h2, Nat.zero_add]
    constructor
    · rintro ⟨_, q2, q3, q4⟩
      refine ⟨q2, Option.some.inj ((h3 v q2).symm.trans q3), fun w hw e1 => q4 w (Nat.zero_le _) hw ?_⟩
      rw [h3 w (by omega), e1]
    · rintro ⟨q2, q3, q4⟩
      refine ⟨Nat.zero_le _, q2, by rw [h3 v q2, q3], fun w _ hw e1 => q4 w hw ?_⟩
      exact Option.some.inj ((h3 w (by omega)).symm.trans e1)
  · rw [g2, h2, Nat.zero_add]
    constructor
    · intro g v hv e1
      exact g v (Nat.zero_le _) hv (by rw [h3 v hv, e1])
    · intro g v _ hv e1
      exact g v hv (Option.some.inj ((h3 v hv).symm.trans e1))

/-- C245: a value is got back from its name, if its name is not that of another value. Missing: two values can have one name. -/
theorem C245_round_trip_partial {first last : Nat} {args : List (List (Nat × String))} {e : En} (h : after first last args = some e) (v : Nat)
    (hv : v < last) (hd : ∀ w, w < last → (given args w).getD "" = (given args v).getD "" → w = v) :
    ∃ s, e.name v = some s ∧ e.ofName s = some v :=
  ⟨_, (C245_name h).1 v hv, ((C245_lookup h _).1 v).2 ⟨hv, rfl, fun w hw e1 => absurd (hd w (by omega) e1) (by omega)⟩⟩

example : (after 0 3 [[(0, "A"), (1, "B"), (2, "C")]]).map (fun e => (["A", "B", "C", "D", "", "<<LAST>>"].map e.ofName)) =
    some [some 0, some 1, some 2, none, none, none] := by decide +kernel

/-- C245 (violated): two values with one name, and values without names -/
theorem C245_round_trip_violated : (after 0 4 [[(0, "A"), (1, "A")]]).map (fun e => (e.name 1, e.ofName "A", e.name 3, e.ofName "")) =
    some (some "A", some 0, some "", some 2) := by decide +kernel

theorem iter_eq (k : Nat) : ∀ v, v + k < 2 ^ 32 → En.iter k v = (List.range k).map (v + ·) := by
  induction k with
  | zero => exact fun _ _ => rfl
  | succ k ih =>
    intro v hv
    unfold En.iter
    rw [Nat.mod_eq_of_lt (by omega), ih (v + 1) (by omega), List.range_succ_eq_map, List.map_cons, List.map_map]
    congr 1
    apply List.map_congr_left
    intro i _
    show v + 1 + i = v + (i + 1)
    omega

/-- C245: iteration visits the values from `__FIRST` to before `__LAST`, each once and in order; their number is the size if the first is 0.
Missing: otherwise it is not. -/
theorem C245_iterate_partial {first last : Nat} {args : List (List (Nat × String))} {e : En} (h : after first last args = some e)
    (hf : first ≤ last) (hl : last < 2 ^ 32) :
    e.iterate = (List.range (last - first)).map (first + ·) ∧ (first = 0 → e.size = e.iterate.length) := by
  obtain ⟨h1, h2, _⟩ := after_spec h
  have : e.iterate = (List.range (last - first)).map (first + ·) := by
    unfold En.iterate
    rw [h1, h2, show (last + 2 ^ 32 - first) % 2 ^ 32 = last - first by omega, iter_eq _ _ (by omega)]
  refine ⟨this, fun h0 => ?_⟩
  rw [this, List.length_map, List.length_range, h0]
  exact h2

/-- C245 (violated): the size of an enumeration that does not start at 0 -/
theorem C245_size_violated : (after 1 3 [[(1, "A"), (2, "B")]]).map (fun e => (e.iterate, e.size, e.populate)) = some ([1, 2], 3, ["", "A", "B"]) := by
  decide +kernel

/-- the histogram after values were added -/
def added (first last : Nat) (vs : List Nat) : Option EHist := vs.foldl (fun h v => h.bind fun h => h.add v) (EHist.make first last)

structure HOk (first last : Nat) (vs : List Nat) (h : EHist) : Prop where
  lower : h.lower = first
  upper : h.upper = last - 1
  len : h.bins.length = last - first
  total : h.total = vs.length
  under : h.under = vs.countP (· < first)
  over : h.over = vs.countP (last ≤ ·)
  bins : ∀ i, i < last - first → h.bins[i]? = some (vs.count (first + i))

theorem add_ok {first last : Nat} (hl : first + 2 ≤ last ∧ last < 2 ^ 32) {vs : List Nat} {h : EHist} (ok : HOk first last vs h) (v : Nat)
    (hw : vs.length + 1 < 2 ^ 64) : ∃ h', h.add v = some h' ∧ HOk first last (vs ++ [v]) h' := by
  have htot : (h.total + 1) % 2 ^ 64 = (vs ++ [v]).length := by
    rw [ok.total, Nat.mod_eq_of_lt hw, List.length_append]; rfl
  have cu : (vs ++ [v]).countP (· < first) = vs.countP (· < first) + if v < first then 1 else 0 := by
    rw [List.countP_append, List.countP_singleton]; simp
  have co : (vs ++ [v]).countP (last ≤ ·) = vs.countP (last ≤ ·) + if last ≤ v then 1 else 0 := by
    rw [List.countP_append, List.countP_singleton]; simp
  have cb : ∀ i, (vs ++ [v]).count (first + i) = vs.count (first + i) + if v = first + i then 1 else 0 := by
    intro i; rw [List.count_append, List.count_singleton]; simp
  have lu := List.countP_le_length (p := fun x => decide (x < first)) (l := vs)
  have lo := List.countP_le_length (p := fun x => decide (last ≤ x)) (l := vs)
  unfold EHist.add
  dsimp only
  rw [ok.lower, ok.upper, htot]
  by_cases c1 : v < first
  · rw [if_pos c1]
    refine ⟨_, rfl, ⟨rfl, rfl, ok.len, rfl, ?_, ?_, ?_⟩⟩
    · show (h.under + 1) % 2 ^ 64 = _
      rw [cu, if_pos c1, ok.under, Nat.mod_eq_of_lt (by omega)]
    · show h.over = _
      rw [co, if_neg (by omega)]; exact ok.over
    · intro i hi
      rw [cb, if_neg (by omega)]; exact ok.bins i hi
  · rw [if_neg c1]
    by_cases c2 : v > last - 1
    · rw [if_pos c2]
      refine ⟨_, rfl, ⟨rfl, rfl, ok.len, rfl, ?_, ?_, ?_⟩⟩
      · show h.under = _
        rw [cu, if_neg (by omega)]; exact ok.under
      · show (h.over + 1) % 2 ^ 64 = _
        rw [co, if_pos (by omega), ok.over, Nat.mod_eq_of_lt (by omega)]
      · intro i hi
        rw [cb, if_neg (by omega)]; exact ok.bins i hi
    · rw [if_neg c2, Nat.shiftRight_zero, Nat.mod_eq_of_lt (show v - first < 2 ^ 32 by omega), ok.bins (v - first) (by omega)]
      refine ⟨_, rfl, ⟨rfl, rfl, by show (List.set _ _ _).length = _; rw [List.length_set]; exact ok.len, rfl, ?_, ?_, ?_⟩⟩
      · show h.under = _
        rw [cu, if_neg (by omega)]; exact ok.under
      · show h.over = _
        rw [co, if_neg (by omega)]; exact ok.over
      · intro i hi
        show (List.set _ _ _)[i]? = _
        have lc := List.count_le_length (a := first + i) (l := vs)
        by_cases ei : v - first = i
        · have e1 : v = first + i := by omega
          rw [cb, if_pos e1, show first + (v - first) = first + i by omega, ei, List.getElem?_set_self (by rw [ok.len]; exact hi),
            Nat.mod_eq_of_lt (by omega)]
        · rw [cb, if_neg (by omega), List.getElem?_set_ne ei]; exact ok.bins i hi

/-- C246: a histogram can be made exactly for enumerations of at least two values -/
theorem C246_make (first last : Nat) (h0 : 0 < last) (hl : last < 2 ^ 32) : EHist.make first last ≠ none ↔ first + 2 ≤ last := by
  unfold EHist.make
  dsimp only
  rw [show (last + 2 ^ 64 - 1) % 2 ^ 64 = last - 1 by omega, Nat.div_one]
  by_cases c : last - 1 > first
  · rw [if_pos c, if_pos (by omega)]
    exact ⟨fun _ => by omega, fun _ h => (nomatch h)⟩
  · rw [if_neg c]
    exact ⟨fun h => absurd rfl h, fun h => by omega⟩

example : EHist.make 0 2 ≠ none ∧ EHist.make 0 1 = none := by decide +kernel

theorem added_ok {first last : Nat} (hl : first + 2 ≤ last ∧ last < 2 ^ 32) (vs : List Nat) (hw : vs.length < 2 ^ 64) :
    ∃ h, added first last vs = some h ∧ HOk first last vs h := by
  have make : ∃ h, EHist.make first last = some h ∧ HOk first last [] h := by
    unfold EHist.make
    dsimp only
    rw [show (last + 2 ^ 64 - 1) % 2 ^ 64 = last - 1 by omega, Nat.div_one, if_pos (by omega), if_pos (by omega)]
    refine ⟨_, rfl, ⟨rfl, rfl, ?_, rfl, rfl, rfl, ?_⟩⟩
    · show (List.replicate _ _).length = _
      rw [List.length_replicate]; omega
    · intro i hi
      show (List.replicate _ _)[i]? = _
      rw [List.getElem?_replicate, if_pos (by omega)]
      rfl
  obtain ⟨h0, e0, ok0⟩ := make
  have go : ∀ (vs ws : List Nat) (h : EHist), HOk first last ws h → ws.length + vs.length < 2 ^ 64 →
      ∃ h', vs.foldl (fun h v => h.bind fun h => h.add v) (some h) = some h' ∧ HOk first last (ws ++ vs) h' := by
    intro vs
    induction vs with
    | nil => exact fun ws h ok _ => ⟨h, rfl, by rw [List.append_nil]; exact ok⟩
    | cons v vs ih =>
      intro ws h ok hlen
      rw [List.length_cons] at hlen
      obtain ⟨h1, e1, ok1⟩ := add_ok hl ok v (by omega)
      obtain ⟨h2, e2, ok2⟩ := ih (ws ++ [v]) h1 ok1 (by rw [List.length_append, List.length_singleton]; omega)
      refine ⟨h2, ?_, by rw [List.append_assoc] at ok2; exact ok2⟩
      rw [List.foldl_cons]
      show vs.foldl _ (h.add v) = _
      rw [e1]
      exact e2
  obtain ⟨h, e1, e2⟩ := go vs [] h0 ok0 (by rw [List.length_nil, Nat.zero_add]; exact hw)
  exact ⟨h, by unfold added; rw [e0]; exact e1, e2⟩

/-- C246: adding values never throws, and each value added is counted once: in its own bin if it is one of the enumeration -/
theorem C246_counts {first last : Nat} (hl : first + 2 ≤ last ∧ last < 2 ^ 32) (vs : List Nat) (hw : vs.length < 2 ^ 64) :
    ∃ h, added first last vs = some h ∧ h.total = vs.length ∧ h.bins.length = last - first ∧
      (∀ i, i < last - first → h.bins[i]? = some (vs.count (first + i))) ∧
      ((∀ v ∈ vs, first ≤ v ∧ v < last) → h.under = 0 ∧ h.over = 0) := by
  obtain ⟨h, e, ok⟩ := added_ok hl vs hw
  refine ⟨h, e, ok.total, ok.len, ok.bins, fun g => ⟨?_, ?_⟩⟩
  · rw [ok.under, List.countP_eq_zero]
    intro a ha
    have := g a ha
    simp; omega
  · rw [ok.over, List.countP_eq_zero]
    intro a ha
    have := g a ha
    simp; omega

example : (added 0 3 [2, 0, 2, 2, 1]).map (fun h => (h.total, h.bins, h.under, h.over)) = some (5, [1, 1, 3], 0, 0) := by decide +kernel

theorem countP_first (vs : List Nat) (a : Nat) : vs.countP (· ≤ a) = vs.countP (· < a) + vs.count a := by
  induction vs with
  | nil => rfl
  | cons v vs ih =>
    rw [List.countP_cons, List.countP_cons, List.count_cons, ih]
    by_cases h1 : v < a
    · have h2 : v ≤ a := by omega
      have h3 : v ≠ a := by omega
      simp [h1, h2, h3]; omega
    · by_cases h3 : v = a
      · simp [h3]; omega
      · have h2 : ¬ v ≤ a := by omega
        simp [h1, h2, h3]

theorem sums_spec (vs : List Nat) (hw : vs.length < 2 ^ 64) (bs : List Nat) : ∀ (a s : Nat), s = vs.countP (· < a) →
    (∀ i, i < bs.length → bs[i]? = some (vs.count (a + i))) →
    (EHist.sums s bs).length = bs.length ∧ (∀ i, i < bs.length → (EHist.sums s bs)[i]? = some (vs.countP (· ≤ a + i))) ∧
    (EHist.sums s bs).getLastD s = vs.countP (· < a + bs.length) := by
  induction bs with
  | nil => exact fun a s h _ => ⟨rfl, fun i hi => absurd hi (Nat.not_lt_zero _), h⟩
  | cons b bs ih =>
    intro a s hs hb
    have hb0 : b = vs.count a := Option.some.inj (hb 0 (Nat.succ_pos _))
    have hsum : (s + b) % 2 ^ 64 = vs.countP (· ≤ a) := by
      have := List.countP_le_length (p := fun x => decide (x ≤ a)) (l := vs)
      rw [hs, hb0, ← countP_first, Nat.mod_eq_of_lt (by omega)]
    have hlt : vs.countP (· ≤ a) = vs.countP (· < a + 1) := by
      congr 1; funext x; simp; omega
    obtain ⟨h1, h2, h3⟩ := ih (a + 1) ((s + b) % 2 ^ 64) (hsum.trans hlt) (by
      intro i hi
      have := hb (i + 1) (Nat.succ_lt_succ hi)
      rw [show a + 1 + i = a + (i + 1) by omega]
      exact this)
    unfold EHist.sums
    refine ⟨by rw [List.length_cons, h1, List.length_cons], ?_, ?_⟩
    · intro i hi
      cases i with
      | zero => exact congrArg some hsum
      | succ i =>
        have := h2 i (Nat.lt_of_succ_lt_succ hi)
        rw [show a + (i + 1) = a + 1 + i by omega]
        exact this
    · rw [List.getLastD_cons, h3, List.length_cons, show a + 1 + bs.length = a + (bs.length + 1) by omega]

/-- C246: in the cumulative listing the line of a value has the number of added values that are at most it, and the last line the number of
all -/
theorem C246_cumulative {first last : Nat} (hl : first + 2 ≤ last ∧ last < 2 ^ 32) (vs : List Nat) (hw : vs.length < 2 ^ 64) (h : EHist)
    (ha : added first last vs = some h) :
    ∃ l, h.display = (vs.countP (· < first), l, vs.length) ∧ l.length = last - first ∧
      ∀ i, i < last - first → l[i]? = some (vs.countP (· ≤ first + i)) := by
  obtain ⟨h', e, ok⟩ := added_ok hl vs hw
  rw [Option.some.inj (e.symm.trans ha)] at ok
  obtain ⟨h1, h2, h3⟩ := sums_spec vs hw h.bins first h.under ok.under (fun i hi => ok.bins i (by rw [← ok.len]; exact hi))
  refine ⟨EHist.sums h.under h.bins, ?_, h1.trans ok.len, fun i hi => h2 i (by rw [ok.len]; exact hi)⟩
  unfold EHist.display
  dsimp only
  rw [h3, ok.len, show first + (last - first) = last by omega, ok.under, ok.over]
  have : ∀ vs : List Nat, vs.countP (· < last) + vs.countP (last ≤ ·) = vs.length := by
    intro vs
    induction vs with
    | nil => rfl
    | cons v vs ih =>
      rw [List.countP_cons, List.countP_cons, List.length_cons]
      by_cases h1 : v < last
      · have h2 : ¬ last ≤ v := by omega
        simp [h1, h2]; omega
      · have h2 : last ≤ v := by omega
        simp [h1, h2]; omega
  rw [this, Nat.mod_eq_of_lt hw]

example : (added 0 3 [2, 0, 2, 2, 1]).map (fun h => h.display) = some (0, [1, 2, 5], 5) := by decide +kernel

end Sparta.EnumT
