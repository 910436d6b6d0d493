import Verif.DAG.Spec
namespace Sparta.DAG
open Relation

/-- the graph holds exactly the edges `E` -/
structure Rep (g : G) (E : List (Nat × Nat)) : Prop where
  nodupE : E.Nodup
  irrefl : ∀ v, (v, v) ∉ E
  out : ∀ v, g.out v = (E.filter (fun e => e.1 = v)).map (·.2)
  inb : ∀ w, g.inb w = (E.filter (fun e => e.2 = w)).length
  nodupV : g.verts.Nodup
  inDag : ∀ v, g.inDag v = true ↔ v ∈ g.verts
  ends : ∀ v w, (v, w) ∈ E → v ∈ g.verts ∧ w ∈ g.verts

theorem Rep.mem_out {g : G} {E} (r : Rep g E) (v w : Nat) : w ∈ g.out v ↔ (v, w) ∈ E := by
  rw [r.out]
  simp only [List.mem_map, List.mem_filter, decide_eq_true_eq]
  constructor
  · rintro ⟨⟨a, b⟩, ⟨h1, h2⟩, h3⟩; simp only at h2 h3; subst h2; subst h3; exact h1
  · intro h; exact ⟨(v, w), ⟨h, rfl⟩, rfl⟩

theorem Rep.empty (early : Bool) : Rep (G.empty early) [] := by
  constructor <;> simp [G.empty]

theorem Rep.addVert {g : G} {E} (r : Rep g E) (v : Nat) : Rep (g.addVert v) E := by
  unfold G.addVert
  split
  · exact r
  · rename_i h
    have hv : v ∉ g.verts := by rw [← r.inDag]; exact h
    exact {
      nodupE := r.nodupE
      irrefl := r.irrefl
      out := r.out
      inb := r.inb
      nodupV := by
        show (g.verts ++ [v]).Nodup
        rw [List.nodup_append]
        refine ⟨r.nodupV, by simp, ?_⟩
        intro a ha b hb
        simp only [List.mem_singleton] at hb
        subst hb
        intro e; exact hv (e ▸ ha)
      inDag := by
        intro w
        show upd g.inDag v true w = true ↔ w ∈ g.verts ++ [v]
        rw [List.mem_append, List.mem_singleton, ← r.inDag]
        unfold upd
        split <;> simp_all
      ends := by
        intro a b hab
        have := r.ends a b hab
        exact ⟨List.mem_append_left _ this.1, List.mem_append_left _ this.2⟩ }

theorem addVert_mem (g : G) (v : Nat) (h : ∀ v, g.inDag v = true ↔ v ∈ g.verts) : v ∈ (g.addVert v).verts := by
  unfold G.addVert
  split
  · rename_i hh; exact (h v).1 hh
  · simp

theorem addVert_mono (g : G) (v w : Nat) (h : w ∈ g.verts) : w ∈ (g.addVert v).verts := by
  unfold G.addVert; split
  · exact h
  · exact List.mem_append_left _ h

theorem Rep.vlink {g : G} {E} (r : Rep g E) {v w : Nat} (hv : v ∈ g.verts) (hw : w ∈ g.verts) :
    Rep (g.vlink v w).1 (addEdge E v w) ∧ ((g.vlink v w).2 = true ↔ v ≠ w ∧ (v, w) ∉ E) := by
  unfold G.vlink addEdge
  by_cases e : v = w
  · subst e; simp [r]
  · rw [if_neg (fun h => e h.symm)]
    by_cases h : (v, w) ∈ E
    · rw [if_pos ((r.mem_out v w).2 h), if_pos (Or.inr h)]
      exact ⟨r, by simp [h]⟩
    · rw [if_neg (fun hh => h ((r.mem_out v w).1 hh)), if_neg (by simp [e, h])]
      refine ⟨?_, by simp [e, h]⟩
      exact {
        nodupE := by
          rw [List.nodup_append]
          refine ⟨r.nodupE, by simp, ?_⟩
          intro a ha b hb
          simp only [List.mem_singleton] at hb
          subst hb; intro e; exact h (e ▸ ha)
        irrefl := by
          intro a ha
          rcases List.mem_append.1 ha with ha | ha
          · exact r.irrefl a ha
          · simp only [List.mem_singleton, Prod.mk.injEq] at ha
            exact e (ha.1.symm.trans ha.2)
        out := by
          intro a
          show upd g.out v (g.out v ++ [w]) a = _
          rw [List.filter_append, List.map_append, ← r.out]
          unfold upd
          by_cases ha : a = v
          · subst ha; simp
          · rw [if_neg ha]
            have : (List.filter (fun e : Nat × Nat => decide (e.1 = a)) [(v, w)]) = [] := by
              simp; exact fun h => ha h.symm
            rw [this]; simp
        inb := by
          intro a
          show upd g.inb w (g.inb w + 1) a = _
          rw [List.filter_append, List.length_append, ← r.inb]
          unfold upd
          by_cases ha : a = w
          · subst ha; simp
          · rw [if_neg ha]
            have : (List.filter (fun e : Nat × Nat => decide (e.2 = a)) [(v, w)]) = [] := by
              simp; exact fun h => ha h.symm
            rw [this]; simp
        nodupV := r.nodupV
        inDag := r.inDag
        ends := by
          intro a b hab
          rcases List.mem_append.1 hab with hab | hab
          · exact r.ends a b hab
          · simp only [List.mem_singleton, Prod.mk.injEq] at hab
            rw [hab.1, hab.2]; exact ⟨hv, hw⟩ }

theorem filter_filter_ne_length (E : List (Nat × Nat)) (hn : E.Nodup) (v w a : Nat) (h : (v, w) ∈ E) :
    ((E.filter (· ≠ (v, w))).filter (fun e => decide (e.2 = a))).length
      = if a = w then (E.filter (fun e => decide (e.2 = a))).length - 1
        else (E.filter (fun e => decide (e.2 = a))).length := by
  have h1 : (E.filter (· ≠ (v, w))) = E.erase (v, w) := by
    rw [hn.erase_eq_filter]
    apply List.filter_congr
    intro x _
    by_cases e : x = (v, w) <;> simp [e]
  rw [h1]
  by_cases ha : a = w
  · subst ha
    rw [if_pos rfl, ← List.erase_filter, List.length_erase_of_mem]
    simp [h]
  · rw [if_neg ha, ← List.erase_filter, List.erase_of_not_mem]
    simp; exact fun _ h => ha h.symm

theorem Rep.unlink {g : G} {E} (r : Rep g E) (v w : Nat) :
    ∃ g' b, g.unlink v w = some (g', b) ∧ Rep g' (E.filter (· ≠ (v, w))) := by
  unfold G.unlink
  have nomem : (v, w) ∉ E → E.filter (· ≠ (v, w)) = E := by
    intro h
    rw [List.filter_eq_self]
    intro a ha
    simp only [decide_eq_true_eq, ne_eq]
    intro e; exact h (e ▸ ha)
  by_cases e : w = v
  · subst e
    rw [if_pos rfl, nomem (r.irrefl w)]
    exact ⟨_, _, rfl, r⟩
  · rw [if_neg e]
    by_cases h : (v, w) ∈ E
    · rw [if_pos ((r.mem_out v w).2 h), if_pos]
      · refine ⟨_, _, rfl, ?_⟩
        exact {
          nodupE := r.nodupE.filter _
          irrefl := fun a ha => r.irrefl a (List.mem_filter.1 ha).1
          out := by
            intro a
            show upd g.out v ((g.out v).filter (· ≠ w)) a = _
            unfold upd
            by_cases ha : a = v
            · subst ha
              rw [if_pos rfl, r.out, List.filter_map, List.filter_filter, List.filter_filter]
              congr 1
              apply List.filter_congr
              rintro ⟨x, y⟩ _
              simp only [Function.comp, ne_eq, Prod.mk.injEq, decide_not, Bool.decide_and]
              by_cases h1 : x = a <;> simp [h1]
            · rw [if_neg ha, r.out, List.filter_filter]
              congr 1
              apply List.filter_congr
              rintro ⟨x, y⟩ _
              simp only [ne_eq, Prod.mk.injEq, decide_not, Bool.decide_and]
              by_cases h1 : x = a
              · subst h1; simp [ha]
              · simp [h1]
          inb := by
            intro a
            show upd g.inb w (g.inb w - 1) a = _
            rw [filter_filter_ne_length E r.nodupE v w a h, ← r.inb]
            unfold upd
            by_cases ha : a = w
            · subst ha; simp
            · simp [ha]
          nodupV := r.nodupV
          inDag := r.inDag
          ends := fun a b hab => r.ends a b (List.mem_filter.1 hab).1 }
      · rw [r.inb]
        apply List.length_pos_of_mem (a := (v, w))
        simp [h]
    · rw [if_neg (fun hh => h ((r.mem_out v w).1 hh)), nomem h]
      exact ⟨_, _, rfl, r⟩

theorem Steps.of_cons {R : Nat → Nat → Prop} {v : Nat} {l : List Nat} (h : Steps R (v :: l)) : Steps R l := by
  cases l with
  | nil => trivial
  | cons w ws => exact h.2

theorem Steps.get {R : Nat → Nat → Prop} {l : List Nat} (h : Steps R l) (i : Nat) (hi : i + 1 < l.length) :
    R l[i] l[i + 1] := by
  induction l generalizing i with
  | nil => simp at hi
  | cons v l ih =>
    cases l with
    | nil => simp at hi
    | cons w l =>
      cases i with
      | zero => exact h.1
      | succ i => exact ih h.2 i (by simpa using hi)

theorem Steps.drop {R : Nat → Nat → Prop} {l : List Nat} (h : Steps R l) (i : Nat) : Steps R (l.drop i) := by
  induction i generalizing l with
  | zero => exact h
  | succ i ih =>
    cases l with
    | nil => trivial
    | cons v l => exact ih h.of_cons

/-! ### depth first search -/

/-- `visitDetect` is `visitFind` without the list -/
theorem scanDetect_eq (rd) (rf) (h : ∀ c v, rd c v = (rf c v).map fun x => (x.1, x.2.isSome))
    (c : Nat → Color) (ws : List Nat) :
    scanDetect rd c ws = (scanFind rf c ws).map fun x => (x.1, x.2.isSome) := by
  induction ws generalizing c with
  | nil => rfl
  | cons w ws ih =>
    unfold scanDetect scanFind
    cases hc : c w with
    | white =>
      simp only [h c w]
      cases hr : rf c w with
      | none => rfl
      | some x =>
        obtain ⟨c', o⟩ := x
        cases o with
        | none => simpa using ih c'
        | some l => rfl
    | gray => rfl
    | black => exact ih c

theorem visitDetect_eq (g : G) (fuel : Nat) (c : Nat → Color) (v : Nat) :
    g.visitDetect fuel c v = (g.visitFind fuel c v).map fun x => (x.1, x.2.isSome) := by
  induction fuel generalizing c v with
  | zero => rfl
  | succ fuel ih =>
    unfold G.visitDetect G.visitFind
    rw [scanDetect_eq _ _ ih]
    cases scanFind (g.visitFind fuel) (upd c v .gray) (g.out v) with
    | none => rfl
    | some x =>
      obtain ⟨c', o⟩ := x
      cases o <;> rfl

theorem detectFrom_eq (g : G) (c : Nat → Color) (vs : List Nat) :
    g.detectFrom c vs = (g.findFrom c vs).map (·.isSome) := by
  induction vs generalizing c with
  | nil => rfl
  | cons v vs ih =>
    unfold G.detectFrom G.findFrom
    split
    · rw [visitDetect_eq]
      cases g.visitFind g.verts.length c v with
      | none => rfl
      | some x =>
        obtain ⟨c', o⟩ := x
        cases o with
        | none => exact ih c'
        | some l => rfl
    · exact ih c

/-- colours: black vertices are closed under edges and on no cycle -/
structure Good (E : Nat → Nat → Prop) (c : Nat → Color) : Prop where
  closed : ∀ b w, c b = .black → E b w → c w = .black
  acyc : ∀ b, c b = .black → ¬ TransGen E b b

theorem Good.closedTrans {E : Nat → Nat → Prop} {c} (h : Good E c) {a b : Nat} (ha : c a = .black)
    (p : TransGen E a b) : c b = .black := by
  induction p with
  | single e => exact h.closed _ _ ha e
  | tail _ e ih => exact h.closed _ _ ih e

/-- number of white vertices -/
def whites (g : G) (c : Nat → Color) : Nat := g.verts.countP (fun v => c v = .white)

/-- what a visit that found nothing changed -/
structure Grow (c c' : Nat → Color) : Prop where
  gray : ∀ x, c' x = .gray ↔ c x = .gray
  black : ∀ x, c x = .black → c' x = .black

theorem Grow.white {c c' : Nat → Color} (h : Grow c c') (x : Nat) (hx : c' x = .white) : c x = .white := by
  cases e : c x with
  | white => rfl
  | gray => rw [(h.gray x).2 e] at hx; cases hx
  | black => rw [h.black x e] at hx; cases hx

theorem Grow.trans {a b c : Nat → Color} (h : Grow a b) (k : Grow b c) : Grow a c :=
  ⟨fun x => (k.gray x).trans (h.gray x), fun x hx => k.black x (h.black x hx)⟩

theorem Grow.refl (c : Nat → Color) : Grow c c := ⟨fun _ => Iff.rfl, fun _ h => h⟩

theorem whites_le {g : G} {c c' : Nat → Color} (h : Grow c c') : whites g c' ≤ whites g c := by
  apply List.countP_mono_left
  intro x _ hx
  simp only [decide_eq_true_eq] at hx ⊢
  exact h.white x hx

theorem whites_gray {g : G} {c : Nat → Color} {v : Nat} (hv : v ∈ g.verts) (hc : c v = .white) :
    whites g (upd c v .gray) < whites g c := by
  unfold whites
  have key : ∀ l : List Nat,
      l.countP (fun x => decide (upd c v .gray x = .white)) ≤ l.countP (fun x => decide (c x = .white)) ∧
      (v ∈ l → l.countP (fun x => decide (upd c v .gray x = .white)) < l.countP (fun x => decide (c x = .white))) := by
    intro l
    induction l with
    | nil => simp
    | cons x xs ih =>
      simp only [List.countP_cons]
      by_cases e : x = v
      · subst e
        simp [hc]; omega
      · simp only [upd_other _ _ e]
        refine ⟨by omega, ?_⟩
        intro h
        rcases List.mem_cons.1 h with h | h
        · exact absurd h.symm e
        · have := ih.2 h; omega
  exact (key g.verts).2 hv

/-- a found list: a chain of edges from `v` whose last vertex was gray or occurs before -/
structure Found (E : Nat → Nat → Prop) (c : Nat → Color) (v : Nat) (l : List Nat) : Prop where
  chain : Steps E (v :: l)
  ne : l ≠ []
  last : c (l.getLast ne) = .gray ∨ l.getLast ne ∈ l.dropLast

theorem scanFind_spec (g : G) (E : Nat → Nat → Prop) (hE : ∀ v w, w ∈ g.out v → E v w)
    (fuel : Nat) (hV : ∀ v w, w ∈ g.out v → w ∈ g.verts)
    (rec : (Nat → Color) → Nat → Option ((Nat → Color) × Option (List Nat)))
    (hrec : ∀ c v, c v = .white → v ∈ g.verts → whites g c ≤ fuel → Good E c →
      ∃ c' r, rec c v = some (c', r) ∧
        (r = none → Good E c' ∧ Grow c c' ∧ c' v = .black) ∧
        (∀ l, r = some l → Found E (upd c v .gray) v l))
    (v : Nat) : ∀ (ws : List Nat) (c : Nat → Color), (∀ w ∈ ws, w ∈ g.out v) →
      whites g c ≤ fuel → Good E c →
      ∃ c' r, scanFind rec c ws = some (c', r) ∧
        (r = none → Good E c' ∧ Grow c c' ∧ ∀ w ∈ ws, c' w = .black) ∧
        (∀ l, r = some l → Found E c v l) := by
  intro ws
  induction ws with
  | nil =>
    intro c _ _ hg
    exact ⟨c, none, rfl, fun _ => ⟨hg, Grow.refl c, by simp⟩, by simp⟩
  | cons w ws ih =>
    intro c hsub hf hg
    have hw := hsub w List.mem_cons_self
    have hsub' : ∀ x ∈ ws, x ∈ g.out v := fun x hx => hsub x (List.mem_cons_of_mem _ hx)
    unfold scanFind
    cases hc : c w with
    | white =>
      obtain ⟨c', r, h1, h2, h3⟩ := hrec c w hc (hV v w hw) hf hg
      simp only [h1]
      cases r with
      | none =>
        obtain ⟨hg', hgr, hb⟩ := h2 rfl
        obtain ⟨c'', r, h4, h5, h6⟩ := ih c' hsub' (Nat.le_trans (whites_le hgr) hf) hg'
        refine ⟨c'', r, h4, ?_, ?_⟩
        · intro hr
          obtain ⟨hg'', hgr', hall⟩ := h5 hr
          refine ⟨hg'', hgr.trans hgr', ?_⟩
          intro x hx
          rcases List.mem_cons.1 hx with rfl | hx
          · exact hgr'.black _ hb
          · exact hall x hx
        · intro l hl
          obtain ⟨f1, f2, f3⟩ := h6 l hl
          refine ⟨f1, f2, ?_⟩
          rcases f3 with f3 | f3
          · exact Or.inl ((hgr.gray _).1 f3)
          · exact Or.inr f3
      | some l =>
        obtain ⟨f1, f2, f3⟩ := h3 l rfl
        refine ⟨c', some (w :: l), rfl, by simp, ?_⟩
        intro l' hl'
        cases hl'
        refine ⟨⟨hE v w hw, f1⟩, by simp, ?_⟩
        rw [List.getLast_cons f2, List.dropLast_cons_of_ne_nil f2]
        rcases f3 with f3 | f3
        · by_cases e : l.getLast f2 = w
          · exact Or.inr (by rw [e]; exact List.mem_cons_self)
          · rw [upd_other _ _ e] at f3; exact Or.inl f3
        · exact Or.inr (List.mem_cons_of_mem _ f3)
    | gray =>
      refine ⟨c, some [w], rfl, by simp, ?_⟩
      intro l hl
      cases hl
      exact ⟨⟨hE v w hw, trivial⟩, by simp, Or.inl (by simpa using hc)⟩
    | black =>
      simp only
      obtain ⟨c'', r, h4, h5, h6⟩ := ih c hsub' hf hg
      refine ⟨c'', r, h4, ?_, h6⟩
      intro hr
      obtain ⟨hg'', hgr', hall⟩ := h5 hr
      refine ⟨hg'', hgr', ?_⟩
      intro x hx
      rcases List.mem_cons.1 hx with rfl | hx
      · exact hgr'.black _ hc
      · exact hall x hx

theorem visitFind_spec (g : G) (E : Nat → Nat → Prop) (hE : ∀ v w, w ∈ g.out v ↔ E v w)
    (hV : ∀ v w, w ∈ g.out v → w ∈ g.verts) (fuel : Nat) :
    ∀ c v, c v = .white → v ∈ g.verts → whites g c ≤ fuel → Good E c →
      ∃ c' r, g.visitFind fuel c v = some (c', r) ∧
        (r = none → Good E c' ∧ Grow c c' ∧ c' v = .black) ∧
        (∀ l, r = some l → Found E (upd c v .gray) v l) := by
  induction fuel with
  | zero =>
    intro c v hc hv hf _
    exact absurd (whites_gray hv hc) (by omega)
  | succ fuel ih =>
    intro c v hc hv hf hg
    have hg1 : Good E (upd c v .gray) := by
      refine ⟨?_, ?_⟩
      · intro b w hb he
        by_cases e : b = v
        · subst e; simp at hb
        · rw [upd_other _ _ e] at hb
          have := hg.closed b w hb he
          by_cases e' : w = v
          · subst e'; rw [hc] at this; cases this
          · rw [upd_other _ _ e']; exact this
      · intro b hb
        by_cases e : b = v
        · subst e; simp at hb
        · rw [upd_other _ _ e] at hb; exact hg.acyc b hb
    obtain ⟨c', r, h1, h2, h3⟩ := scanFind_spec g E (fun v w => (hE v w).1) fuel hV (g.visitFind fuel) ih v
      (g.out v) (upd c v .gray) (fun _ h => h)
      (by have := whites_gray hv hc; omega) hg1
    unfold G.visitFind
    rw [h1]
    cases r with
    | some l => exact ⟨c', some l, rfl, by simp, fun l' hl' => h3 l' hl'⟩
    | none =>
      refine ⟨upd c' v .black, none, rfl, ?_, by simp⟩
      intro _
      obtain ⟨hg', hgr, hall⟩ := h2 rfl
      have hgv : c' v = .gray := (hgr.gray v).2 (by simp)
      have nb : ∀ b, c' b = .black → b ≠ v := by
        intro b hb e; subst e; rw [hgv] at hb; cases hb
      have cl : ∀ w, E v w → c' w = .black := fun w h => hall w ((hE v w).2 h)
      refine ⟨⟨?_, ?_⟩, ⟨?_, ?_⟩, by simp⟩
      · intro b w hb he
        have : c' w = .black := by
          by_cases e : b = v
          · subst e; exact cl w he
          · rw [upd_other _ _ e] at hb; exact hg'.closed b w hb he
        rw [upd_other _ _ (nb w this)]; exact this
      · intro b hb
        by_cases e : b = v
        · subst e
          intro p
          have reach : ∀ x, TransGen E b x → c' x = .black := by
            intro x p
            induction p with
            | single e => exact cl _ e
            | tail _ e ih => exact hg'.closed _ _ ih e
          exact nb b (reach b p) rfl
        · rw [upd_other _ _ e] at hb; exact hg'.acyc b hb
      · intro x
        by_cases e : x = v
        · subst e; simp [hc]
        · rw [upd_other _ _ e, hgr.gray, upd_other _ _ e]
      · intro x hx
        by_cases e : x = v
        · subst e; simp
        · rw [upd_other _ _ e]; exact hgr.black x (by rw [upd_other _ _ e]; exact hx)

theorem findFrom_spec (g : G) (E : Nat → Nat → Prop) (hE : ∀ v w, w ∈ g.out v ↔ E v w)
    (hV : ∀ v w, w ∈ g.out v → w ∈ g.verts) : ∀ (vs : List Nat) (c : Nat → Color), (∀ v ∈ vs, v ∈ g.verts) →
    Good E c → (∀ x, c x ≠ .gray) →
    ∃ r, g.findFrom c vs = some r ∧
      (r = none → ∃ c', Good E c' ∧ Grow c c' ∧ ∀ v ∈ vs, c' v = .black) ∧
      (∀ l, r = some l → ∃ v, Found E (fun x => if x = v then .gray else .white) v l) := by
  intro vs
  induction vs with
  | nil => intro c _ hg _; exact ⟨none, rfl, fun _ => ⟨c, hg, Grow.refl c, by simp⟩, by simp⟩
  | cons v vs ih =>
    intro c hsub hg hng
    have hsub' : ∀ x ∈ vs, x ∈ g.verts := fun x hx => hsub x (List.mem_cons_of_mem _ hx)
    unfold G.findFrom
    by_cases hc : c v = .white
    · rw [if_pos hc]
      obtain ⟨c', r, h1, h2, h3⟩ := visitFind_spec g E hE hV g.verts.length c v hc
        (hsub v List.mem_cons_self) List.countP_le_length hg
      simp only [h1]
      cases r with
      | some l =>
        refine ⟨some l, rfl, by simp, ?_⟩
        intro l' hl'
        cases hl'
        obtain ⟨f1, f2, f3⟩ := h3 l rfl
        refine ⟨v, f1, f2, ?_⟩
        rcases f3 with f3 | f3
        · left
          by_cases e : l.getLast f2 = v
          · rw [if_pos e]
          · rw [upd_other _ _ e] at f3; exact absurd f3 (hng _)
        · exact Or.inr f3
      | none =>
        obtain ⟨hg', hgr, hb⟩ := h2 rfl
        obtain ⟨r, h4, h5, h6⟩ := ih c' hsub' hg' (fun x hx => hng x ((hgr.gray x).1 hx))
        refine ⟨r, h4, ?_, h6⟩
        intro hr
        obtain ⟨c'', hg'', hgr', hall⟩ := h5 hr
        refine ⟨c'', hg'', hgr.trans hgr', ?_⟩
        intro x hx
        rcases List.mem_cons.1 hx with rfl | hx
        · exact hgr'.black _ hb
        · exact hall x hx
    · rw [if_neg hc]
      have hb : c v = .black := by
        cases e : c v with
        | white => exact absurd e hc
        | gray => exact absurd e (hng v)
        | black => rfl
      obtain ⟨r, h4, h5, h6⟩ := ih c hsub' hg hng
      refine ⟨r, h4, ?_, h6⟩
      intro hr
      obtain ⟨c'', hg'', hgr', hall⟩ := h5 hr
      refine ⟨c'', hg'', hgr', ?_⟩
      intro x hx
      rcases List.mem_cons.1 hx with rfl | hx
      · exact hgr'.black _ hb
      · exact hall x hx

theorem chain_trans {E : Nat → Nat → Prop} {v : Nat} {l : List Nat} (h : Steps E (v :: l)) (ne : l ≠ []) :
    TransGen E v (l.getLast ne) := by
  induction l generalizing v with
  | nil => exact absurd rfl ne
  | cons w ws ih =>
    obtain ⟨h1, h2⟩ := h
    cases ws with
    | nil => exact .single h1
    | cons y ys =>
      rw [List.getLast_cons (by simp)]
      exact (TransGen.single h1).trans (ih h2 (by simp))

theorem Found.real {E : List (Nat × Nat)} {v : Nat} {l : List Nat}
    (h : Found (fun v w => (v, w) ∈ E) (fun x => if x = v then .gray else .white) v l) : RealCycle E l := by
  obtain ⟨h1, h2, h3⟩ := h
  refine ⟨h2, h1.of_cons, ?_⟩
  rcases h3 with h3 | h3
  · have e : l.getLast h2 = v := by
      by_cases e : l.getLast h2 = v
      · exact e
      · simp [e] at h3
    rw [e]
    cases l with
    | nil => exact absurd rfl h2
    | cons w ws => exact ⟨w, List.mem_cons_self, h1.1⟩
  · obtain ⟨i, hi, he⟩ := List.mem_iff_getElem.1 h3
    rw [List.length_dropLast] at hi
    rw [List.getElem_dropLast] at he
    have := h1.of_cons.get i (by omega)
    exact ⟨l[i + 1], List.getElem_mem _, by rw [← he]; exact this⟩

theorem RealCycle.cyclic {E : List (Nat × Nat)} {l : List Nat} (h : RealCycle E l) : Cyclic E := by
  obtain ⟨ne, ch, w, hw, he⟩ := h
  refine ⟨l.getLast ne, ?_⟩
  obtain ⟨i, hi, rfl⟩ := List.mem_iff_getElem.1 hw
  by_cases hlast : i + 1 = l.length
  · have : l[i] = l.getLast ne := by
      rw [List.getLast_eq_getElem]; congr 1; omega
    rw [this] at he
    exact .single he
  · refine (TransGen.single (r := fun v w => (v, w) ∈ E) he).trans ?_
    have hd : l.drop i = l[i] :: l.drop (i + 1) := List.drop_eq_getElem_cons hi
    have ch' : Steps (fun v w => (v, w) ∈ E) (l.drop i) := ch.drop i
    rw [hd] at ch'
    have ne' : l.drop (i + 1) ≠ [] := by
      intro h; have := congrArg List.length h; simp at this; omega
    have := chain_trans ch' ne'
    rwa [List.getLast_drop] at this

theorem Rep.find {g : G} {E} (r : Rep g E) :
    (∃ l, g.findFrom (fun _ => .white) g.verts = some (some l) ∧ RealCycle E l) ∨
    (g.findFrom (fun _ => .white) g.verts = some none ∧ ¬ Cyclic E) := by
  have hg : Good (fun v w => (v, w) ∈ E) (fun _ => .white) :=
    ⟨fun _ _ h => (nomatch h), fun _ h => (nomatch h)⟩
  obtain ⟨o, h1, h2, h3⟩ := findFrom_spec g (fun v w => (v, w) ∈ E) r.mem_out
    (fun v w h => (r.ends v w ((r.mem_out v w).1 h)).2) g.verts (fun _ => .white) (fun _ h => h) hg
    (by intro _ h; cases h)
  cases o with
  | some l =>
    left
    obtain ⟨v, hf⟩ := h3 l rfl
    exact ⟨l, h1, hf.real⟩
  | none =>
    right
    refine ⟨h1, ?_⟩
    rintro ⟨v, p⟩
    obtain ⟨c', hg', -, hall⟩ := h2 rfl
    have hv : v ∈ g.verts := by
      have : ∃ w, (v, w) ∈ E := by
        have : ∀ a b, TransGen (fun v w => (v, w) ∈ E) a b → ∃ w, (a, w) ∈ E := by
          intro a b p
          induction p with
          | single e => exact ⟨_, e⟩
          | tail _ _ ih => exact ih
        exact this v v p
      obtain ⟨w, hw⟩ := this
      exact (r.ends v w hw).1
    exact hg'.acyc v (hall v hv) p

theorem Rep.detect {g : G} {E} (r : Rep g E) : ∃ b, g.detectCycle = some b ∧ (b = true ↔ Cyclic E) := by
  unfold G.detectCycle
  rw [detectFrom_eq]
  rcases r.find with ⟨l, h, hl⟩ | ⟨h, hn⟩
  · exact ⟨true, by rw [h]; rfl, by simp [hl.cyclic]⟩
  · exact ⟨false, by rw [h]; rfl, by simp [hn]⟩

theorem Rep.getCycles {g : G} {E} (r : Rep g E) :
    ∃ l, g.getCycles = some l ∧ (Cyclic E → RealCycle E l) ∧ (¬ Cyclic E → l = []) := by
  unfold G.getCycles
  rcases r.find with ⟨l, h, hl⟩ | ⟨h, hn⟩
  · exact ⟨l, by rw [h]; rfl, fun _ => hl, fun hh => absurd hl.cyclic hh⟩
  · exact ⟨[], by rw [h]; rfl, fun hh => absurd hh hn, fun _ => rfl⟩

theorem vlink_early (g : G) (v w : Nat) : (g.vlink v w).1.early = g.early := by
  unfold G.vlink; split
  · rfl
  · split <;> rfl

theorem addVert_early (g : G) (v : Nat) : (g.addVert v).early = g.early := by
  unfold G.addVert; split <;> rfl

theorem Rep.link {g : G} {E} (r : Rep g E) (v w : Nat) :
    Rep (g.link v w).1 (addEdge E v w) ∧ (g.link v w).1.early = g.early ∧
    ((g.link v w).2 = .ok ∧ ¬ (g.early = true ∧ v ≠ w ∧ (v, w) ∉ E ∧ Cyclic (addEdge E v w)) ∨
     ∃ l, (g.link v w).2 = .cycle l ∧ RealCycle (addEdge E v w) l ∧ g.early = true ∧ v ≠ w ∧ (v, w) ∉ E) := by
  have r1 := (r.addVert v).addVert w
  have hv : v ∈ ((g.addVert v).addVert w).verts := addVert_mono _ _ _ (addVert_mem _ _ r.inDag)
  have hw : w ∈ ((g.addVert v).addVert w).verts := addVert_mem _ _ (r.addVert v).inDag
  obtain ⟨r2, hnew⟩ := r1.vlink hv hw
  have he : (((g.addVert v).addVert w).vlink v w).1.early = g.early := by
    rw [vlink_early, addVert_early, addVert_early]
  unfold G.link
  simp only
  generalize ((g.addVert v).addVert w).vlink v w = x at r2 hnew he
  obtain ⟨g2, new⟩ := x
  simp only at r2 hnew he ⊢
  by_cases hb : new = true ∧ g2.early = true
  · rw [if_pos hb]
    obtain ⟨b, hd, hb'⟩ := r2.detect
    rw [hd]
    obtain ⟨l, hl, hl1, -⟩ := r2.getCycles
    cases b with
    | true =>
      simp only [hl]
      refine ⟨r2, he, Or.inr ⟨l, rfl, hl1 (hb'.1 rfl), ?_, hnew.1 hb.1⟩⟩
      rw [← he]; exact hb.2
    | false =>
      refine ⟨r2, he, Or.inl ⟨rfl, ?_⟩⟩
      rintro ⟨-, -, -, hc⟩
      exact absurd (hb'.2 hc) (by simp)
  · rw [if_neg hb]
    refine ⟨r2, he, Or.inl ⟨rfl, ?_⟩⟩
    rintro ⟨h1, h2, h3, -⟩
    exact hb ⟨hnew.2 ⟨h2, h3⟩, by rw [he]; exact h1⟩

theorem phaseChain_eq : (List.range 6).foldl (fun E i => addEdge E i (i + 1)) [] = phaseChain := by decide

theorem Rep.init (early : Bool) : Rep (G.init early) phaseChain ∧ (G.init early).early = early := by
  unfold G.init
  rw [← phaseChain_eq]
  have key : ∀ (l : List Nat) (g : G) (E : List (Nat × Nat)), Rep g E → g.early = early →
      Rep (l.foldl (fun g i => (g.link i (i + 1)).1) g) (l.foldl (fun E i => addEdge E i (i + 1)) E) ∧
      (l.foldl (fun g i => (g.link i (i + 1)).1) g).early = early := by
    intro l
    induction l with
    | nil => intro g E r h; exact ⟨r, h⟩
    | cons i l ih =>
      intro g E r h
      have := r.link i (i + 1)
      exact ih _ _ this.1 (this.2.1.trans h)
  exact key _ _ _ (Rep.empty early) rfl

/-- a call without early detection performs all its links -/
theorem Rep.step {g : G} {E} (r : Rep g E) (he : g.early = false) (o : Op) :
    Rep (g.step o).1 (edgesStep E o) ∧ (g.step o).1.early = false ∧ (g.step o).2 = .ok := by
  have lk : ∀ {g : G} {E}, Rep g E → g.early = false → ∀ v w, Rep (g.link v w).1 (addEdge E v w) ∧
      (g.link v w).1.early = false ∧ (g.link v w).2 = .ok := by
    intro g E r he v w
    obtain ⟨h1, h2, h3⟩ := r.link v w
    refine ⟨h1, h2.trans he, ?_⟩
    rcases h3 with h3 | ⟨l, -, -, h, -⟩
    · exact h3.1
    · rw [he] at h; cases h
  cases o with
  | link v w => exact lk r he v w
  | unlink v w =>
    obtain ⟨g', b, h1, h2⟩ := r.unlink v w
    have h3 : g'.early = false := by
      unfold G.unlink at h1
      split at h1
      · cases h1; exact he
      · split at h1
        · split at h1
          · cases h1; exact he
          · cases h1
        · cases h1; exact he
    simp only [G.step, h1]
    exact ⟨h2, h3, trivial⟩
  | phase p v =>
    simp only [G.step, G.setPhase, edgesStep]
    by_cases hp : p = 0
    · simp only [hp, if_true]; exact lk r he v 0
    · simp only [hp, if_false]
      obtain ⟨h1, h2, h3⟩ := lk r he (p - 1) v
      generalize g.link (p - 1) v = x at h1 h2 h3
      obtain ⟨g1, o1⟩ := x
      simp only at h1 h2 h3
      subst h3
      exact lk h1 h2 v p

theorem Rep.run (os : List Op) :
    Rep (runOps G.step (G.init false) os).1 (declared os) ∧
    ∀ o ∈ (runOps G.step (G.init false) os).2, o = .ok := by
  have key : ∀ (os : List Op) (g : G) (E : List (Nat × Nat)), Rep g E → g.early = false →
      Rep (runOps G.step g os).1 (os.foldl edgesStep E) ∧ ∀ o ∈ (runOps G.step g os).2, o = .ok := by
    intro os
    induction os with
    | nil => intro g E r _; exact ⟨r, by simp [runOps]⟩
    | cons o os ih =>
      intro g E r he
      obtain ⟨h1, h2, h3⟩ := r.step he o
      obtain ⟨h4, h5⟩ := ih _ _ h1 h2
      refine ⟨h4, ?_⟩
      intro x hx
      simp only [runOps, List.mem_cons] at hx
      rcases hx with rfl | hx
      · exact h3
      · exact h5 x hx
  exact key os _ _ (Rep.init false).1 (Rep.init false).2

end Sparta.DAG
