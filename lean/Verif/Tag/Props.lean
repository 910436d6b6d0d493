import Verif.Tag.Spec
namespace Sparta.Tag

theorem render_one (a : Nat) : render [a] = Nat.toDigits 10 a := rfl
theorem render_two (a b : Nat) (l : List Nat) : render (a :: b :: l) = Nat.toDigits 10 a ++ '.' :: render (b :: l) := rfl

theorem render_snoc (l : List Nat) (n : Nat) (h : l ≠ []) : render (l ++ [n]) = render l ++ ['.'] ++ Nat.toDigits 10 n := by
  induction l with
  | nil => exact absurd rfl h
  | cons a l ih =>
    cases l with
    | nil => simp [render]
    | cons b l =>
      have := ih (by simp)
      simp only [List.cons_append] at this ⊢
      rw [render_two, this, render_two]
      simp

theorem dot_not_mem (n : Nat) : '.' ∉ Nat.toDigits 10 n := fun h => by
  have := Nat.isDigit_of_mem_toDigits (by omega) (by omega) h
  exact absurd this (by decide)

theorem toDigits_inj {m n : Nat} (h : Nat.toDigits 10 m = Nat.toDigits 10 n) : m = n := by
  rw [← Nat.ofDigitChars_ten_toDigits (n := m), h, Nat.ofDigitChars_ten_toDigits]

theorem split_dot {a b c d : List Char} (h : a ++ '.' :: c = b ++ '.' :: d) (ha : '.' ∉ a) (hb : '.' ∉ b) : a = b ∧ c = d := by
  induction a generalizing b with
  | nil =>
    cases b with
    | nil => simpa using h
    | cons y b => simp at h hb; exact absurd h.1 hb.1
  | cons x a ih =>
    cases b with
    | nil => simp at h ha; exact absurd h.1.symm ha.1
    | cons y b =>
      simp at h ha hb
      obtain ⟨rfl, rfl⟩ := ih (by simpa using h.2) ha.2 hb.2
      exact ⟨by rw [h.1], rfl⟩

theorem render_inj {l k : List Nat} (hl : l ≠ []) (hk : k ≠ []) (h : render l = render k) : l = k := by
  induction l generalizing k with
  | nil => exact absurd rfl hl
  | cons a l ih =>
    cases k with
    | nil => exact absurd rfl hk
    | cons b k =>
      cases l with
      | nil =>
        cases k with
        | nil => rw [render_one, render_one] at h; rw [toDigits_inj h]
        | cons b' k =>
          rw [render_one, render_two] at h
          exact absurd (h ▸ List.mem_append_right _ (List.mem_cons_self ..)) (dot_not_mem a)
      | cons a' l =>
        cases k with
        | nil =>
          rw [render_two, render_one] at h
          exact absurd (h ▸ List.mem_append_right _ (List.mem_cons_self ..)) (dot_not_mem b)
        | cons b' k =>
          rw [render_two, render_two] at h
          obtain ⟨h1, h2⟩ := split_dot h (dot_not_mem a) (dot_not_mem b)
          rw [toDigits_inj h1, ih (by simp) (by simp) h2]

/-- the tags made by the code are those of the specification -/
structure Rep (s : State) (t : List Entry) : Prop where
  len : s.tags.length = t.length
  global : s.global = roots t + 1
  orig : ∀ (i : Nat) (e : Entry), t[i]? = some e → ∃ e0 : Entry, t[e.origin]? = some e0 ∧ e0.origin = e.origin ∧
    e.label = e0.label ∧ ∃ g g0 : Tag, s.tags[i]? = some g ∧ s.tags[e.origin]? = some g0 ∧ g.parent = g0.parent ∧ g.seq = g0.seq
  root : ∀ (i : Nat) (e : Entry) (g : Tag), t[i]? = some e → s.tags[i]? = some g → g.parent = none →
    e.label = [g.seq] ∧ g.seq ≤ roots t
  kid : ∀ (i : Nat) (e : Entry) (g : Tag) (p : Nat), t[i]? = some e → s.tags[i]? = some g → g.parent = some p →
    p < i ∧ g.seq ≤ kids t p ∧ ∃ ep : Entry, t[p]? = some ep ∧ ep.origin = p ∧ e.label = ep.label ++ [g.seq]
  sib : ∀ (i j : Nat) (e f : Entry) (g h : Tag), t[i]? = some e → t[j]? = some f → e.origin = i → f.origin = j →
    s.tags[i]? = some g → s.tags[j]? = some h → i < j → g.parent = h.parent → g.seq < h.seq
  count : ∀ (p : Nat) (e : Entry) (g : Tag), t[p]? = some e → e.origin = p → s.tags[p]? = some g → g.childSeq = kids t p + 1
  bound : ∀ (i : Nat) (e : Entry), t[i]? = some e → e.origin ≤ i ∧ ∀ p, e.made = .child p → p < i

theorem rep_init : Rep init [] := by
  constructor <;> simp [init, roots]

theorem roots_le (t : List Entry) : roots t ≤ t.length := List.countP_le_length
theorem kids_le (t : List Entry) (p : Nat) : kids t p ≤ t.length := List.countP_le_length

theorem u32inc_of {n : Nat} (h : n < 2 ^ 32 - 1) : u32inc n = n + 1 := by unfold u32inc; rw [if_neg (by omega)]

theorem get_snoc {α : Type} {l : List α} {x y : α} {i : Nat} (h : (l ++ [x])[i]? = some y) :
    (i < l.length ∧ l[i]? = some y) ∨ (i = l.length ∧ y = x) := by
  by_cases hi : i < l.length
  · rw [List.getElem?_append_left hi] at h; exact Or.inl ⟨hi, h⟩
  · rw [List.getElem?_append_right (by omega)] at h
    have : i - l.length = 0 := by
      cases hk : i - l.length with
      | zero => rfl
      | succ k => rw [hk] at h; cases h
    rw [this] at h; cases h
    exact Or.inr ⟨by omega, rfl⟩

theorem get_lt {α : Type} {l : List α} {y : α} {i : Nat} (h : l[i]? = some y) : i < l.length :=
  (List.getElem?_eq_some_iff.mp h).1

theorem get_old {α : Type} {l : List α} {x y : α} {i : Nat} (h : l[i]? = some y) : (l ++ [x])[i]? = some y := by
  rw [List.getElem?_append_left (get_lt h)]; exact h

theorem get_new {α : Type} (l : List α) (x : α) : (l ++ [x])[l.length]? = some x := by simp

theorem rep_root {s : State} {t : List Entry} (h : Rep s t) (o : Op) (ho : o = .new ∨ o = .childNull)
    (hb : t.length < 2 ^ 32 - 2) : Rep (newRoot s) (t ++ [⟨t.length, o, [roots t + 1]⟩]) := by
  have hk : ∀ p, kids (t ++ [⟨t.length, o, [roots t + 1]⟩]) p = kids t p := by
    intro p; unfold kids; rw [List.countP_append]; rcases ho with rfl | rfl <;> simp
  have hr : roots (t ++ [⟨t.length, o, [roots t + 1]⟩]) = roots t + 1 := by
    unfold roots; rw [List.countP_append]; rcases ho with rfl | rfl <;> simp
  have hrl := roots_le t
  have hlen := h.len
  have zero : ∀ p, t.length ≤ p → kids t p = 0 := by
    intro p hp
    unfold kids
    rw [List.countP_eq_zero]
    intro e he
    obtain ⟨i, hi⟩ := List.mem_iff_getElem?.mp he
    have := h.bound i e hi
    have hlt := get_lt hi
    intro hm
    have := this.2 p (by simpa using hm)
    omega
  constructor
  · simp [newRoot, hlen]
  · show u32inc s.global = _
    rw [hr, h.global, u32inc_of (by omega)]
  · intro i e he
    rcases get_snoc he with ⟨_, he⟩ | ⟨rfl, rfl⟩
    · obtain ⟨e0, a1, a2, a3, g, g0, b1, b2, b3, b4⟩ := h.orig i e he
      exact ⟨e0, get_old a1, a2, a3, g, g0, get_old b1, get_old b2, b3, b4⟩
    · refine ⟨_, get_new .., rfl, rfl, { seq := s.global }, { seq := s.global }, ?_, ?_, rfl, rfl⟩ <;>
      · show (s.tags ++ _)[t.length]? = _
        rw [← hlen]; exact get_new ..
  · intro i e g he hg hp
    rcases get_snoc he with ⟨hi, he⟩ | ⟨rfl, rfl⟩ <;> rcases get_snoc hg with ⟨hi', hg⟩ | ⟨hi', rfl⟩
    · have := h.root i e g he hg hp
      rw [hr]; exact ⟨this.1, by omega⟩
    · omega
    · omega
    · rw [hr]; exact ⟨by rw [h.global], by show s.global ≤ _; rw [h.global]; omega⟩
  · intro i e g p he hg hp
    rcases get_snoc he with ⟨hi, he⟩ | ⟨rfl, rfl⟩ <;> rcases get_snoc hg with ⟨hi', hg⟩ | ⟨hi', rfl⟩
    · obtain ⟨a1, a2, ep, a3, a4, a5⟩ := h.kid i e g p he hg hp
      rw [hk]; exact ⟨a1, a2, ep, get_old a3, a4, a5⟩
    · omega
    · omega
    · cases hp
  · intro i j e f g g' he hf hoe hof hg hg' hij hpar
    have hjl : j ≤ t.length := by have := get_lt hf; simp at this; omega
    rcases get_snoc he with ⟨hi, he⟩ | ⟨rfl, rfl⟩ <;> rcases get_snoc hg with ⟨hi', hg⟩ | ⟨hi', rfl⟩
    · rcases get_snoc hf with ⟨hj, hf⟩ | ⟨rfl, rfl⟩ <;> rcases get_snoc hg' with ⟨hj', hg'⟩ | ⟨hj', rfl⟩
      · exact h.sib i j e f g g' he hf hoe hof hg hg' hij hpar
      · omega
      · omega
      · have := (h.root i e g he hg hpar).2
        show _ < s.global
        rw [h.global]; omega
    · omega
    · omega
    · omega
  · intro p e g he hoe hg
    rw [hk]
    rcases get_snoc he with ⟨hi, he⟩ | ⟨rfl, rfl⟩ <;> rcases get_snoc hg with ⟨hi', hg⟩ | ⟨hi', rfl⟩
    · exact h.count p e g he hoe hg
    · omega
    · omega
    · rw [zero _ (Nat.le_refl _)]
  · intro i e he
    rcases get_snoc he with ⟨_, he⟩ | ⟨rfl, rfl⟩
    · exact h.bound i e he
    · exact ⟨Nat.le_refl _, fun p hp => by rcases ho with rfl | rfl <;> cases hp⟩

theorem rep_copy {s : State} {t : List Entry} (h : Rep s t) (i : Nat) (ei : Entry) (gi : Tag) (hei : t[i]? = some ei)
    (hgi : s.tags[i]? = some gi) : Rep { s with tags := s.tags ++ [gi] } (t ++ [⟨ei.origin, .copy i, ei.label⟩]) := by
  have hk : ∀ p, kids (t ++ [⟨ei.origin, .copy i, ei.label⟩]) p = kids t p := by
    intro p; unfold kids; rw [List.countP_append]; simp
  have hr : roots (t ++ [⟨ei.origin, .copy i, ei.label⟩]) = roots t := by
    unfold roots; rw [List.countP_append]; simp
  have hlen := h.len
  have hil := get_lt hei
  have hbo := h.bound i ei hei
  constructor
  · simp [hlen]
  · show s.global = _
    rw [hr, h.global]
  · intro j e he
    rcases get_snoc he with ⟨_, he⟩ | ⟨rfl, rfl⟩
    · obtain ⟨e0, a1, a2, a3, g, g0, b1, b2, b3, b4⟩ := h.orig j e he
      exact ⟨e0, get_old a1, a2, a3, g, g0, get_old b1, get_old b2, b3, b4⟩
    · obtain ⟨e0, a1, a2, a3, g, g0, b1, b2, b3, b4⟩ := h.orig i ei hei
      rw [hgi] at b1; cases b1
      exact ⟨e0, get_old a1, a2, a3, gi, g0, by show (s.tags ++ _)[t.length]? = _; rw [← hlen]; exact get_new .., get_old b2, b3, b4⟩
  · intro j e g he hg hp
    rw [hr]
    rcases get_snoc he with ⟨hi, he⟩ | ⟨rfl, rfl⟩ <;> rcases get_snoc hg with ⟨hi', hg⟩ | ⟨hi', rfl⟩
    · exact h.root j e g he hg hp
    · omega
    · omega
    · exact h.root i ei g hei hgi hp
  · intro j e g p he hg hp
    rw [hk]
    rcases get_snoc he with ⟨hi, he⟩ | ⟨rfl, rfl⟩ <;> rcases get_snoc hg with ⟨hi', hg⟩ | ⟨hi', rfl⟩
    · obtain ⟨a1, a2, ep, a3, a4, a5⟩ := h.kid j e g p he hg hp
      exact ⟨a1, a2, ep, get_old a3, a4, a5⟩
    · omega
    · omega
    · obtain ⟨a1, a2, ep, a3, a4, a5⟩ := h.kid i ei g p hei hgi hp
      exact ⟨by omega, a2, ep, get_old a3, a4, a5⟩
  · intro a b e f g g' he hf hoe hof hg hg' hij hpar
    rcases get_snoc he with ⟨hi, he⟩ | ⟨rfl, rfl⟩ <;> rcases get_snoc hf with ⟨hj, hf⟩ | ⟨rfl, rfl⟩
    · rcases get_snoc hg with ⟨hi', hg⟩ | ⟨hi', rfl⟩ <;> rcases get_snoc hg' with ⟨hj', hg'⟩ | ⟨hj', rfl⟩
      · exact h.sib a b e f g g' he hf hoe hof hg hg' hij hpar
      all_goals omega
    · dsimp only at hof; omega
    · omega
    · omega
  · intro p e g he hoe hg
    rw [hk]
    rcases get_snoc he with ⟨hi, he⟩ | ⟨rfl, rfl⟩ <;> rcases get_snoc hg with ⟨hi', hg⟩ | ⟨hi', rfl⟩
    · exact h.count p e g he hoe hg
    · omega
    · omega
    · dsimp only at hoe; omega
  · intro j e he
    rcases get_snoc he with ⟨_, he⟩ | ⟨rfl, rfl⟩
    · exact h.bound j e he
    · exact ⟨by dsimp only; omega, fun p hp => by cases hp⟩

theorem get_set {l : List Tag} {p i : Nat} {g g' x : Tag} (hp : l[p]? = some g) (hx : (l.set p g')[i]? = some x) :
    (i = p ∧ x = g') ∨ (i ≠ p ∧ l[i]? = some x) := by
  by_cases hi : i = p
  · subst hi
    rw [List.getElem?_set_self (get_lt hp)] at hx; cases hx
    exact Or.inl ⟨rfl, rfl⟩
  · rw [List.getElem?_set_ne (Ne.symm hi)] at hx
    exact Or.inr ⟨hi, hx⟩

/-- counting a child changes nothing but the count -/
theorem get_set_same {l : List Tag} {p i : Nat} {g x : Tag} {c : Nat} (hp : l[p]? = some g)
    (hx : (l.set p { g with childSeq := c })[i]? = some x) :
    ∃ y, l[i]? = some y ∧ y.parent = x.parent ∧ y.seq = x.seq ∧ (i ≠ p → y = x) := by
  rcases get_set hp hx with ⟨rfl, rfl⟩ | ⟨h1, h2⟩
  · exact ⟨g, hp, rfl, rfl, fun h => absurd rfl h⟩
  · exact ⟨x, h2, rfl, rfl, fun _ => rfl⟩

theorem get_set_mono {l : List Tag} {p i : Nat} {g y : Tag} {c : Nat} (hp : l[p]? = some g) (hy : l[i]? = some y) :
    ∃ x, (l.set p { g with childSeq := c })[i]? = some x ∧ y.parent = x.parent ∧ y.seq = x.seq := by
  by_cases hi : i = p
  · subst hi
    rw [hp] at hy; cases hy
    exact ⟨_, List.getElem?_set_self (get_lt hp), rfl, rfl⟩
  · exact ⟨y, by rw [List.getElem?_set_ne (Ne.symm hi)]; exact hy, rfl, rfl⟩

theorem rep_child {s : State} {t : List Entry} (h : Rep s t) (p : Nat) (ep : Entry) (gp : Tag) (hep : t[p]? = some ep)
    (hop : ep.origin = p) (hgp : s.tags[p]? = some gp) (hb : t.length < 2 ^ 32 - 2) :
    Rep { s with tags := s.tags.set p { gp with childSeq := u32inc gp.childSeq } ++ [{ parent := some p, seq := gp.childSeq }] }
      (t ++ [⟨t.length, .child p, ep.label ++ [kids t p + 1]⟩]) := by
  have hk : ∀ q, kids (t ++ [⟨t.length, .child p, ep.label ++ [kids t p + 1]⟩]) q = kids t q + if q = p then 1 else 0 := by
    intro q; unfold kids; rw [List.countP_append]
    by_cases hq : q = p
    · subst hq; simp
    · have : ¬ p = q := fun e => hq e.symm
      simp [hq, this]
  have hr : roots (t ++ [⟨t.length, .child p, ep.label ++ [kids t p + 1]⟩]) = roots t := by
    unfold roots; rw [List.countP_append]; simp
  have hkl := kids_le t p
  have hlen := h.len
  have hpl := get_lt hep
  have hcs := h.count p ep gp hep hop hgp
  have hsl : (s.tags.set p { gp with childSeq := u32inc gp.childSeq }).length = t.length := by simp [hlen]
  have zero : kids t t.length = 0 := by
    unfold kids
    rw [List.countP_eq_zero]
    intro e he
    obtain ⟨i, hi⟩ := List.mem_iff_getElem?.mp he
    have := h.bound i e hi
    have hlt := get_lt hi
    intro hm
    have := this.2 t.length (by simpa using hm)
    omega
  constructor
  · simp [hlen]
  · show s.global = _
    rw [hr, h.global]
  · intro i e he
    rcases get_snoc he with ⟨_, he⟩ | ⟨rfl, rfl⟩
    · obtain ⟨e0, a1, a2, a3, g, g0, b1, b2, b3, b4⟩ := h.orig i e he
      obtain ⟨x, x1, x2, x3⟩ := get_set_mono (c := u32inc gp.childSeq) hgp b1
      obtain ⟨y, y1, y2, y3⟩ := get_set_mono (c := u32inc gp.childSeq) hgp b2
      exact ⟨e0, get_old a1, a2, a3, x, y, get_old x1, get_old y1, by rw [← x2, ← y2, b3], by rw [← x3, ← y3, b4]⟩
    · refine ⟨_, get_new .., rfl, rfl, { parent := some p, seq := gp.childSeq }, { parent := some p, seq := gp.childSeq }, ?_, ?_, rfl, rfl⟩ <;>
      · show (_ ++ _)[t.length]? = _
        rw [← hsl]; exact get_new ..
  · intro i e g he hg hpar
    rw [hr]
    rcases get_snoc he with ⟨hi, he⟩ | ⟨rfl, rfl⟩ <;> rcases get_snoc hg with ⟨hi', hg⟩ | ⟨hi', rfl⟩
    · obtain ⟨y, y1, y2, y3, _⟩ := get_set_same hgp hg
      rw [← y3]
      exact h.root i e y he y1 (by rw [y2, hpar])
    · omega
    · omega
    · cases hpar
  · intro i e g q he hg hpar
    rcases get_snoc he with ⟨hi, he⟩ | ⟨rfl, rfl⟩ <;> rcases get_snoc hg with ⟨hi', hg⟩ | ⟨hi', rfl⟩
    · obtain ⟨y, y1, y2, y3, _⟩ := get_set_same hgp hg
      obtain ⟨a1, a2, eq, a3, a4, a5⟩ := h.kid i e y q he y1 (by rw [y2, hpar])
      rw [hk, ← y3]
      exact ⟨a1, by omega, eq, get_old a3, a4, a5⟩
    · omega
    · omega
    · cases hpar
      rw [hk, if_pos rfl]
      exact ⟨hpl, by show gp.childSeq ≤ _; omega, ep, get_old hep, hop, by rw [hcs]⟩
  · intro i j e f g g' he hf hoe hof hg hg' hij hpar
    have hjl : j ≤ t.length := by have := get_lt hf; simp at this; omega
    rcases get_snoc he with ⟨hi, he⟩ | ⟨rfl, rfl⟩ <;> rcases get_snoc hg with ⟨hi', hg⟩ | ⟨hi', rfl⟩
    · obtain ⟨y, y1, y2, y3, _⟩ := get_set_same hgp hg
      rcases get_snoc hf with ⟨hj, hf⟩ | ⟨rfl, rfl⟩ <;> rcases get_snoc hg' with ⟨hj', hg'⟩ | ⟨hj', rfl⟩
      · obtain ⟨z, z1, z2, z3, _⟩ := get_set_same hgp hg'
        rw [← y3, ← z3]
        exact h.sib i j e f y z he hf hoe hof y1 z1 hij (by rw [y2, z2, hpar])
      · omega
      · omega
      · have := (h.kid i e y p he y1 (by rw [y2, hpar])).2.1
        show _ < gp.childSeq
        omega
    · omega
    · omega
    · omega
  · intro q e g he hoe hg
    rcases get_snoc he with ⟨hi, he⟩ | ⟨rfl, rfl⟩ <;> rcases get_snoc hg with ⟨hi', hg⟩ | ⟨hi', rfl⟩
    · rw [hk]
      rcases get_set hgp hg with ⟨rfl, rfl⟩ | ⟨hne, hg⟩
      · show u32inc gp.childSeq = _
        rw [if_pos rfl, u32inc_of (by omega)]; omega
      · rw [if_neg hne]
        exact h.count q e g he hoe hg
    · omega
    · omega
    · rw [hk, if_neg (by omega), zero]
  · intro i e he
    rcases get_snoc he with ⟨_, he⟩ | ⟨rfl, rfl⟩
    · exact h.bound i e he
    · exact ⟨Nat.le_refl _, fun q hq => by cases hq; exact hpl⟩

theorem get_some {s : State} {t : List Entry} (h : Rep s t) {i : Nat} {e : Entry} (he : t[i]? = some e) : ∃ g, s.tags[i]? = some g :=
  ⟨s.tags[i]'(by rw [h.len]; exact get_lt he), List.getElem?_eq_getElem _⟩

theorem rep_step (s : State) (t : List Entry) (o : Op) (h : Rep s t) (hl : legal t o) :
    Rep (step s o).1 (specStep t o).1 ∧ (step s o).2 = (specStep t o).2 := by
  obtain ⟨hb, hl⟩ := hl
  cases o with
  | new => exact ⟨rep_root h _ (Or.inl rfl) hb, rfl⟩
  | childNull => exact ⟨rep_root h _ (Or.inr rfl) hb, rfl⟩
  | child p =>
    dsimp only at hl
    obtain ⟨ep, hep, hop⟩ := Option.map_eq_some_iff.mp hl
    obtain ⟨gp, hgp⟩ := get_some h hep
    refine ⟨?_, rfl⟩
    unfold step specStep
    simp only [hgp, hep, Option.map_some, Option.getD_some]
    exact rep_child h p ep gp hep hop hgp hb
  | copy i =>
    dsimp only at hl
    have hei : t[i]? = some t[i] := List.getElem?_eq_getElem _
    obtain ⟨gi, hgi⟩ := get_some h hei
    refine ⟨?_, rfl⟩
    unfold step specStep
    simp only [hgi, hei, Option.map_some, Option.getD_some]
    exact rep_copy h i _ gi hei hgi
  | reset => exact hl.elim

theorem label_ne {s : State} {t : List Entry} (h : Rep s t) {i : Nat} {e : Entry} (he : t[i]? = some e) : e.label ≠ [] := by
  obtain ⟨g, hg⟩ := get_some h he
  cases hp : g.parent with
  | none => rw [(h.root i e g he hg hp).1]; simp
  | some p => obtain ⟨_, _, ep, _, _, e5⟩ := h.kid i e g p he hg hp; rw [e5]; simp

theorem text_of {s : State} {t : List Entry} (h : Rep s t) (f i : Nat) (e : Entry) (he : t[i]? = some e) (hf : i < f) :
    textFuel f s i = render e.label := by
  induction f generalizing i e with
  | zero => omega
  | succ f ih =>
    obtain ⟨g, hg⟩ := get_some h he
    unfold textFuel
    simp only [hg]
    cases hp : g.parent with
    | none => rw [(h.root i e g he hg hp).1]; rfl
    | some p =>
      obtain ⟨a1, _, ep, a3, _, a5⟩ := h.kid i e g p he hg hp
      dsimp only
      rw [ih p ep a3 (by omega), a5, render_snoc _ _ (label_ne h a3)]

theorem snoc_inj {l k : List Nat} {a b : Nat} (h : l ++ [a] = k ++ [b]) : l = k ∧ a = b := by
  have := List.append_inj' h rfl
  exact ⟨this.1, by simpa using this.2⟩

theorem equal_of {s : State} {t : List Entry} (h : Rep s t) (f i j : Nat) (e e' : Entry) (he : t[i]? = some e)
    (he' : t[j]? = some e') (hf : i < f) : eqFuel f s i j = decide (e.label = e'.label) := by
  induction f generalizing i j e e' with
  | zero => omega
  | succ f ih =>
    obtain ⟨g, hg⟩ := get_some h he
    obtain ⟨g', hg'⟩ := get_some h he'
    unfold eqFuel
    simp only [hg, hg']
    cases hp : g.parent with
    | none =>
      rw [(h.root i e g he hg hp).1]
      cases hp' : g'.parent with
      | none => rw [(h.root j e' g' he' hg' hp').1]; simp
      | some q =>
        obtain ⟨a1, _, eq, a3, _, a5⟩ := h.kid j e' g' q he' hg' hp'
        dsimp only
        rw [a5]
        symm
        rw [decide_eq_false_iff_not]
        intro hc
        exact label_ne h a3 (snoc_inj (l := []) hc).1.symm
    | some p =>
      obtain ⟨b1, _, ep, b3, _, b5⟩ := h.kid i e g p he hg hp
      rw [b5]
      cases hp' : g'.parent with
      | none =>
        rw [(h.root j e' g' he' hg' hp').1]
        dsimp only
        symm
        rw [decide_eq_false_iff_not]
        intro hc
        exact label_ne h b3 (snoc_inj (k := []) hc).1
      | some q =>
        obtain ⟨a1, _, eq, a3, _, a5⟩ := h.kid j e' g' q he' hg' hp'
        dsimp only
        rw [a5, ih p q ep eq b3 a3 (by omega), ← Bool.decide_and]
        apply decide_eq_decide.mpr
        constructor
        · rintro ⟨h1, h2⟩; rw [h1, h2]
        · intro hc; obtain ⟨h1, h2⟩ := snoc_inj hc; exact ⟨h2, h1⟩

theorem orig_unique {s : State} {t : List Entry} (h : Rep s t) (i j : Nat) (e f : Entry) (he : t[i]? = some e) (hf : t[j]? = some f)
    (hoe : e.origin = i) (hof : f.origin = j) (hl : e.label = f.label) : i = j := by
  induction i using Nat.strongRecOn generalizing j e f with
  | _ i ih =>
    obtain ⟨g, hg⟩ := get_some h he
    obtain ⟨k, hk⟩ := get_some h hf
    have fin : g.parent = k.parent → g.seq = k.seq → i = j := by
      intro h1 h2
      rcases Nat.lt_trichotomy i j with hlt | heq | hgt
      · have := h.sib i j e f g k he hf hoe hof hg hk hlt h1; omega
      · exact heq
      · have := h.sib j i f e k g hf he hof hoe hk hg hgt h1.symm; omega
    cases hp : g.parent with
    | none =>
      have h1 := (h.root i e g he hg hp).1
      cases hq : k.parent with
      | none =>
        have h2 := (h.root j f k hf hk hq).1
        rw [h1, h2] at hl
        exact fin (by rw [hp, hq]) (by simpa using hl)
      | some q =>
        obtain ⟨_, _, eq, a3, _, a5⟩ := h.kid j f k q hf hk hq
        rw [h1, a5] at hl
        exact absurd (snoc_inj (l := []) hl).1.symm (label_ne h a3)
    | some p =>
      obtain ⟨b1, _, ep, b3, b4, b5⟩ := h.kid i e g p he hg hp
      cases hq : k.parent with
      | none =>
        rw [b5, (h.root j f k hf hk hq).1] at hl
        exact absurd (snoc_inj (k := []) hl).1 (label_ne h b3)
      | some q =>
        obtain ⟨_, _, eq, a3, a4, a5⟩ := h.kid j f k q hf hk hq
        rw [b5, a5] at hl
        obtain ⟨h1, h2⟩ := snoc_inj hl
        have := ih p b1 q ep eq b3 a3 b4 a4 h1
        exact fin (by rw [hp, hq, this]) h2

/-- the states after a history -/
def after (os : List Op) : State := (runOps step init os).1
/-- the specification after a history -/
def specAfter (os : List Op) : List Entry := (runOps specStep [] os).1

theorem rep_after (os : List Op) (hl : legalOps specStep legal [] os) : Rep (after os) (specAfter os) :=
  (runOps_simulation_legal step specStep legal Rep rep_step init [] rep_init os hl).1

/-! ### the properties -/

/-- C41: after a history in which copies do not become parents, two tags compare equal exactly when they are the same tag
or copies of the same tag.  Missing: children of copies, resets. -/
theorem C41_identity_partial (os : List Op) (hl : legalOps specStep legal [] os) (i j : Nat) (e f : Entry)
    (he : (specAfter os)[i]? = some e) (hf : (specAfter os)[j]? = some f) :
    equal (after os) i j = decide (e.origin = f.origin) := by
  have h := rep_after os hl
  unfold equal
  rw [equal_of h _ i j e f he hf (by rw [h.len]; exact get_lt he)]
  apply decide_eq_decide.mpr
  obtain ⟨e0, a1, a2, a3, _⟩ := h.orig i e he
  obtain ⟨f0, b1, b2, b3, _⟩ := h.orig j f hf
  constructor
  · intro hlab
    exact orig_unique h _ _ e0 f0 a1 b1 a2 b2 (by rw [← a3, ← b3, hlab])
  · intro ho
    rw [ho, b1] at a1; cases a1
    rw [a3, b3]

/-- C41: the text of a tag: the n-th tag without parent is `n`, the n-th child of a tag is the text of the tag, a point, `n` -/
theorem C41_text_partial (os : List Op) (hl : legalOps specStep legal [] os) (i : Nat) (e : Entry)
    (he : (specAfter os)[i]? = some e) : text (after os) i = render e.label := by
  have h := rep_after os hl
  exact text_of h _ i e he (by rw [h.len]; exact get_lt he)

/-- C41: two tags have the same text exactly when they compare equal -/
theorem C41_text_equal_partial (os : List Op) (hl : legalOps specStep legal [] os) (i j : Nat)
    (hi : i < (after os).tags.length) (hj : j < (after os).tags.length) :
    text (after os) i = text (after os) j ↔ equal (after os) i j = true := by
  have h := rep_after os hl
  have he : (specAfter os)[i]? = some ((specAfter os)[i]'(by rw [← h.len]; exact hi)) := List.getElem?_eq_getElem _
  have hf : (specAfter os)[j]? = some ((specAfter os)[j]'(by rw [← h.len]; exact hj)) := List.getElem?_eq_getElem _
  rw [C41_text_partial os hl i _ he, C41_text_partial os hl j _ hf]
  unfold equal
  rw [equal_of h _ i j _ _ he hf hi, decide_eq_true_iff]
  exact ⟨render_inj (label_ne h he) (label_ne h hf), fun e => by rw [e]⟩

/-- two roots, two children of the first, a child of the second, a copy -/
example : legalOps specStep legal [] [.new, .new, .child 0, .child 0, .child 1, .copy 3, .child 3] ∧
    (specAfter [.new, .new, .child 0, .child 0, .child 1, .copy 3, .child 3]).map (·.label) =
      [[1], [2], [1, 1], [1, 2], [2, 1], [1, 2], [1, 2, 1]] := by
  refine ⟨?_, by decide⟩
  unfold legalOps legalOps legalOps legalOps legalOps legalOps legalOps legalOps legal
  decide

/-- violations: children of a tag and of its copy compare equal although they are different tags; so do tags made before and
after a reset -/
theorem C41_copy_violated : equal (after [.new, .copy 0, .child 0, .child 1]) 2 3 = true := by decide

theorem C41_reset_violated : equal (after [.new, .reset, .new]) 0 1 = true := by decide

end Sparta.Tag
