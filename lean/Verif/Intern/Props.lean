import Verif.Intern.Lemmas
/-!
C242: strings can be compared by the pointers they are interned to.
C243: counting and listing the interned strings.

`start heap os` is the manager constructed while the strings `heap` exist, after the calls `os`; `outs` are the results of these calls.
-/
namespace Sparta.Intern

/-- the manager after a history -/
def start (heap : List Str) (os : List Op) : St := (runOps step (St.mk' heap).1 os).1

/-- the results of a history -/
def outs (heap : List Str) (os : List Op) : List Out := (runOps step (St.mk' heap).1 os).2

/-- `EMPTY` -/
def empty (heap : List Str) : Option Nat := (St.mk' heap).2

/-- the history interned this string (the constructor interns the empty string) -/
def Interned (os : List Op) (s : Str) : Prop := s = [] ∨ Op.intern s ∈ os

/-- the string was interned to this pointer by a call of the history, or by the constructor -/
def To (heap : List Str) (os : List Op) (s : Str) (p : Nat) : Prop :=
  (s = [] ∧ empty heap = some p) ∨ ∃ i : Nat, os[i]? = some (.intern s) ∧ (outs heap os)[i]? = some (.ptr (some p))

theorem start_inv (heap : List Str) (os : List Op) : Inv (start heap os) := (run_spec os _ (inv_mk heap)).1

theorem first (heap : List Str) : ∃ p, empty heap = some p ∧ ∀ x, x ∈ (St.mk' heap).1.map ↔ x = ([], p) := by
  obtain ⟨p, h1, _, _, h4, _⟩ := intern_spec { map := [], maxLen := 0, heap := heap } ⟨List.Pairwise.nil, fun _ h => (nomatch h), fun _ h => (nomatch h), fun _ h => (nomatch h), (show 0 < 2 ^ 32 by decide), Or.inl rfl⟩ []
  exact ⟨p, h1, fun x => (h4 x).trans ⟨fun h => h.resolve_right (fun g => (nomatch g)), Or.inl⟩⟩

theorem to_iff (heap : List Str) (os : List Op) (s : Str) (p : Nat) : To heap os s p ↔ (s, p) ∈ (start heap os).map := by
  obtain ⟨_, h2, h3, h4⟩ := run_spec os _ (inv_mk heap)
  obtain ⟨e, he, hm⟩ := first heap
  constructor
  · rintro (⟨h, g⟩ | ⟨i, h, g⟩)
    · refine h2 _ ((hm _).2 ?_)
      rw [h, Option.some.inj (he.symm.trans g)]
    · obtain ⟨q, g1, g2⟩ := h3 i s h
      have := g1.symm.trans g
      rw [Out.ptr.inj (Option.some.inj this) |> Option.some.inj] at g2
      exact g2
  · intro h
    rcases h4 _ h with g | g
    · have e1 := (hm _).1 g
      exact Or.inl ⟨congrArg Prod.fst e1, he.trans (congrArg some (congrArg Prod.snd e1).symm)⟩
    · exact Or.inr g

theorem interned_iff (heap : List Str) (os : List Op) (s : Str) : Interned os s ↔ ∃ p, (s, p) ∈ (start heap os).map := by
  constructor
  · rintro (h | h)
    · obtain ⟨e, he, _⟩ := first heap
      exact ⟨e, (to_iff heap os s e).1 (Or.inl ⟨h, he⟩)⟩
    · obtain ⟨i, hi⟩ := List.mem_iff_getElem?.1 h
      obtain ⟨p, _, h2⟩ := (run_spec os _ (inv_mk heap)).2.2.1 i s hi
      exact ⟨p, h2⟩
  · rintro ⟨p, h⟩
    rcases (to_iff heap os s p).2 h with ⟨h, _⟩ | ⟨i, h, _⟩
    · exact Or.inl h
    · exact Or.inr (List.mem_iff_getElem?.2 ⟨i, h⟩)

/-- C242: interning never returns null -/
theorem C242_not_null (heap : List Str) (os : List Op) (i : Nat) (s : Str) (h : os[i]? = some (.intern s)) :
    ∃ p, (outs heap os)[i]? = some (.ptr (some p)) := by
  obtain ⟨p, h1, _⟩ := (run_spec os _ (inv_mk heap)).2.2.1 i s h
  exact ⟨p, h1⟩

example : (outs [] [.intern [1], .intern [2], .intern [1], .find [3]])[1]? = some (.ptr (some 2)) := by decide +kernel

/-- C242: whenever two strings are interned, the pointers are the same exactly if the strings are, whatever else happens before, between
and after -/
theorem C242_pointers (heap : List Str) (os : List Op) (s t : Str) (p q : Nat) (hs : To heap os s p) (ht : To heap os t q) :
    p = q ↔ s = t := by
  have h1 := (to_iff heap os s p).1 hs
  have h2 := (to_iff heap os t q).1 ht
  have hi := start_inv heap os
  constructor
  · exact fun e => congrArg Prod.fst (hi.inj _ h1 _ h2 e)
  · intro e
    subst e
    exact Option.some.inj (((lookup_iff _ hi.sorted s p).2 h1).symm.trans ((lookup_iff _ hi.sorted s q).2 h2))

example : outs [[7]] [.intern [1], .alloc [1], .intern [2], .set 2 [2], .intern [1], .intern [2], .intern []] =
    [.ptr (some 2), .ptr (some 3), .ptr (some 4), .done, .ptr (some 2), .ptr (some 4), .ptr (some 1)] ∧ empty [[7]] = some 1 := by decide +kernel

/-- C242: looking for a string gives the pointer it was interned to, and null if it was not interned; nothing is added -/
theorem C242_find (heap : List Str) (os : List Op) (s : Str) :
    (step (start heap os) (.find s)).1 = start heap os ∧ (step (start heap os) (.has s)).1 = start heap os ∧
    (∀ p, (step (start heap os) (.find s)).2 = .ptr (some p) ↔ To heap os s p) ∧
    ((step (start heap os) (.find s)).2 = .ptr none ↔ ¬ Interned os s) ∧
    ((step (start heap os) (.has s)).2 = .bool true ↔ Interned os s) := by
  have hi := start_inv heap os
  have hn : lookup (start heap os).map s = none ↔ ¬ Interned os s := by
    rw [lookup_none hi.sorted, interned_iff heap]
    exact ⟨fun h ⟨p, g⟩ => h p g, fun h p g => h ⟨p, g⟩⟩
  refine ⟨rfl, rfl, ?_, ?_, ?_⟩
  · intro p
    rw [to_iff, ← lookup_iff _ hi.sorted]
    exact ⟨fun h => Out.ptr.inj h, fun h => congrArg Out.ptr h⟩
  · rw [← hn]
    exact ⟨fun h => Out.ptr.inj h, fun h => congrArg Out.ptr h⟩
  · show Out.bool (lookup (start heap os).map s).isSome = _ ↔ _
    cases e : lookup (start heap os).map s with
    | none => exact ⟨fun h => (nomatch h), fun h => absurd h (hn.1 e)⟩
    | some p => exact ⟨fun _ => (interned_iff heap os s).2 ⟨p, (lookup_iff _ hi.sorted s p).1 e⟩, fun _ => rfl⟩

example : outs [] [.find [1], .has [1], .intern [1], .find [1], .has [1], .find []] =
    [.ptr none, .bool false, .ptr (some 1), .ptr (some 1), .bool true, .ptr (some 0)] := by decide +kernel

/-- C242: a pointer counts as interned exactly if a string was interned to it; null and pointers to other strings do not -/
theorem C242_is_interned (heap : List Str) (os : List Op) (p : Option Nat) :
    (step (start heap os) (.isInterned p)).1 = start heap os ∧
    ((step (start heap os) (.isInterned p)).2 = .bool true ↔ ∃ s q, p = some q ∧ To heap os s q) := by
  refine ⟨rfl, ?_⟩
  have : (step (start heap os) (.isInterned p)).2 = .bool true ↔ (start heap os).isInterned p = true :=
    ⟨fun h => Out.bool.inj h, fun h => congrArg Out.bool h⟩
  rw [this]
  unfold St.isInterned
  rw [List.any_eq_true]
  constructor
  · rintro ⟨x, hx, e⟩
    exact ⟨x.1, x.2, (eq_of_beq e).symm, (to_iff ..).2 hx⟩
  · rintro ⟨s, q, e, h⟩
    exact ⟨(s, q), (to_iff ..).1 h, by rw [e]; exact beq_self_eq_true _⟩

example : outs [] [.alloc [1], .intern [1], .isInterned (some 1), .isInterned (some 2), .isInterned none, .isInterned (some 0)] =
    [.ptr (some 1), .ptr (some 2), .bool false, .bool true, .bool false, .bool true] := by decide +kernel

theorem set_keep (c : St) (hi : Inv c) (o : Op) (p : Nat) (s : Str) (h : c.heap[p]? = some s) (hn : ∀ t, o ≠ .set p t) :
    (step c o).1.heap[p]? = some s := by
  have hp : p < c.heap.length := (List.getElem?_eq_some_iff.1 h).1
  cases o with
  | intern t =>
    obtain ⟨q, _, _, _, _, h5⟩ := intern_spec c hi t
    show (c.intern t).1.heap[p]? = _
    rcases h5 with e | ⟨_, e, _⟩
    · rw [e]; exact h
    · rw [e, List.getElem?_append_left hp]; exact h
  | alloc t =>
    show (c.heap ++ [t])[p]? = _
    rw [List.getElem?_append_left hp]; exact h
  | set q t =>
    have hq : q ≠ p := fun e => hn t (by rw [e])
    unfold step
    dsimp only
    by_cases g : q < c.heap.length
    · rw [if_pos g]
      show (c.heap.set q t)[p]? = _
      rw [List.getElem?_set_ne hq]; exact h
    · rw [if_neg g]; exact h
  | _ => exact h

theorem content_step (c : St) (hi : Inv c) (o : Op) (p : Nat) (hn : ∀ t, o ≠ .set p t) (h : ∀ s, (s, p) ∈ c.map → c.heap[p]? = some s)
    (s : Str) (hs : (s, p) ∈ (step c o).1.map) : (step c o).1.heap[p]? = some s := by
  by_cases hc : (s, p) ∈ c.map
  · exact set_keep c hi o p s (h s hc) hn
  · obtain ⟨e1, e2⟩ := ((step_spec c hi o).2.2.2 _ hs).resolve_left hc
    subst e1
    obtain ⟨q, b1, _, _, _, b5⟩ := intern_spec c hi s
    rcases b5 with b | ⟨b, b', _⟩
    · exact absurd (by rw [← b]; exact hs) hc
    · have : q = p := Option.some.inj (b1.symm.trans (Out.ptr.inj e2))
      show (c.intern s).1.heap[p]? = _
      rw [b', ← this, b]
      exact List.getElem?_concat_length

theorem content (os : List Op) : ∀ (c : St), Inv c → ∀ p, (∀ t, Op.set p t ∉ os) → (∀ s, (s, p) ∈ c.map → c.heap[p]? = some s) →
    ∀ s, (s, p) ∈ (runOps step c os).1.map → (runOps step c os).1.heap[p]? = some s := by
  induction os with
  | nil => exact fun c _ p _ h => h
  | cons o os ih =>
    intro c hi p hn h
    exact ih _ (step_spec c hi o).1 p (fun t g => hn t (List.mem_cons_of_mem _ g))
      (content_step c hi o p (fun t e => hn t (by rw [e]; exact List.mem_cons_self ..)) h)

/-- C242: the pointer a string was interned to points to a string equal to it, as long as the caller does not assign to it. Missing: with
such an assignment it does not. -/
theorem C242_content_partial (heap : List Str) (os : List Op) (s : Str) (p : Nat) (h : To heap os s p) (hn : ∀ t, Op.set p t ∉ os) :
    (step (start heap os) (.read p)).2 = .str s := by
  have hc : (start heap os).heap[p]? = some s := by
    refine content os _ (inv_mk heap) p hn ?_ s ((to_iff ..).1 h)
    intro s hs
    obtain ⟨e, he, hm⟩ := first heap
    have h2 := (hm _).1 hs
    have e2 : p = e := congrArg Prod.snd h2
    have e1 : s = [] := congrArg Prod.fst h2
    have : e = heap.length := Option.some.inj (he.symm.trans rfl)
    rw [e1, e2, this]
    exact List.getElem?_concat_length
  unfold step
  dsimp only
  rw [hc]

example : (outs [[7]] [.intern [1], .alloc [3], .set 3 [4], .intern [2], .read 2, .read 3, .read 1]).drop 4 = [.str [1], .str [4], .str []] := by
  decide +kernel

/-- C242 (violated): the pointers are to strings that can be assigned to; afterwards the pointer for a string is to a different string, and
interning the new value gives another pointer -/
theorem C242_content_violated : outs [] [.intern [1], .set 1 [2], .intern [1], .read 1, .intern [2]] =
    [.ptr (some 1), .done, .ptr (some 1), .str [2], .ptr (some 2)] := by decide +kernel

theorem keys_nodup {m : List (Str × Nat)} (h : Sorted m) : (m.map Prod.fst).Nodup := by
  rw [List.Nodup, List.pairwise_map]
  refine h.imp ?_
  intro a b g e
  rw [e] at g
  exact str_irrefl _ g

/-- C243: the number of strings is that of the different strings interned, the empty one included (modulo 2^32) -/
theorem C243_number (heap : List Str) (os : List Op) (l : List Str) (hn : l.Nodup) (hl : ∀ s, s ∈ l ↔ Interned os s) :
    step (start heap os) .num = (start heap os, .num (l.length % 2 ^ 32)) := by
  have hi := start_inv heap os
  have : ((start heap os).map.map Prod.fst).Perm l := by
    rw [List.perm_ext_iff_of_nodup (keys_nodup hi.sorted) hn]
    intro s
    rw [hl, interned_iff heap, List.mem_map]
    exact ⟨fun ⟨x, hx, e⟩ => ⟨x.2, by rw [← e]; exact hx⟩, fun ⟨p, h⟩ => ⟨(s, p), h, rfl⟩⟩
  have := this.length_eq
  rw [List.length_map] at this
  show (_, Out.num ((start heap os).map.length % 2 ^ 32)) = _
  rw [this]

example : let os := [.intern [1], .find [9], .intern [2], .intern [], .alloc [5], .intern [1]]
    (∀ s, s ∈ [[1], [2], []] ↔ Interned os s) ∧ (step (start [] os) .num).2 = .num 3 := by
  refine ⟨fun s => ?_, by decide +kernel⟩
  simp [Interned]
  constructor
  · rintro (h | h | h) <;> simp [h]
  · rintro (h | h | h | h | h) <;> simp [h]

/-- C243: the listing has one line for each string interned, in the order of the strings, with the pointer it was interned to -/
theorem C243_listing (heap : List Str) (os : List Op) :
    ∃ l, step (start heap os) .dump = (start heap os, .text l) ∧ l.Pairwise (fun a b => a.1 < b.1) ∧
      (∀ s, (∃ x ∈ l, x.1 = s) ↔ Interned os s) ∧ ∀ x ∈ l, To heap os x.1 x.2.2 := by
  have hi := start_inv heap os
  refine ⟨_, rfl, ?_, ?_, ?_⟩
  · unfold St.dump
    rw [List.pairwise_map]
    exact hi.sorted
  · intro s
    rw [interned_iff heap]
    unfold St.dump
    constructor
    · rintro ⟨x, hx, e⟩
      obtain ⟨y, hy, ey⟩ := List.mem_map.1 hx
      refine ⟨y.2, ?_⟩
      rw [← e, ← ey]
      exact hy
    · rintro ⟨p, h⟩
      exact ⟨_, List.mem_map.2 ⟨_, h, rfl⟩, rfl⟩
  · intro x hx
    obtain ⟨y, hy, ey⟩ := List.mem_map.1 hx
    rw [← ey]
    exact (to_iff ..).2 hy

/-- C243: in the listing the pointers are in one column, three characters and a space after the longest string: each string and what follows
up to the pointer take together the length of the longest string and 4. For strings shorter than 2^32 - 4. -/
theorem C243_columns_partial (heap : List Str) (os : List Op) (hl : ∀ s, Interned os s → s.length < 2 ^ 31 - 4) (l : List (Str × Nat × Nat))
    (h : (step (start heap os) .dump).2 = .text l) :
    ∃ t, Interned os t ∧ (∀ s, Interned os s → s.length ≤ t.length) ∧ ∀ x ∈ l, x.1.length + x.2.1 = t.length + 4 := by
  have hi := start_inv heap os
  have short : ∀ x ∈ (start heap os).map, x.1.length % 2 ^ 32 = x.1.length ∧ Interned os x.1 := fun x hx => by
    have := (interned_iff heap os x.1).2 ⟨x.2, hx⟩
    have := hl _ this
    exact ⟨Nat.mod_eq_of_lt (by omega), by assumption⟩
  have att : ∃ x ∈ (start heap os).map, x.1.length = (start heap os).maxLen := by
    rcases hi.att with e | ⟨x, hx, e⟩
    · obtain ⟨p, hp⟩ := (interned_iff heap os []).1 (Or.inl rfl)
      exact ⟨([], p), hp, e.symm⟩
    · exact ⟨x, hx, (short x hx).1.symm.trans e⟩
  obtain ⟨t, ht, et⟩ := att
  have hle : ∀ x ∈ (start heap os).map, x.1.length ≤ t.1.length := fun x hx => by
    have := hi.len x hx
    rw [(short x hx).1] at this
    rw [et]; exact this
  refine ⟨t.1, (short t ht).2, ?_, ?_⟩
  · intro s hs
    obtain ⟨p, hp⟩ := (interned_iff heap os s).1 hs
    exact hle _ hp
  · have hd : (start heap os).dump = l := Out.text.inj h
    intro x hx
    rw [← hd] at hx
    obtain ⟨y, hy, ey⟩ := List.mem_map.1 hx
    rw [← ey]
    have h1 := hle y hy
    have h2 := hl _ (short t ht).2
    dsimp only
    rw [← et]
    omega

example : (step (start [] [.intern [2, 2], .intern [1]]) .dump).2 = .text [([], 6, 0), ([1], 5, 2), ([2, 2], 4, 1)] := by decide +kernel

end Sparta.Intern
