import Verif.Pipeline.Precedence
/-! Property C81: precedence between the stage handlers of a Pipeline. -/
namespace Sparta.Pipeline.Prec

/-- `a` is ordered before `b` by the declared precedences -/
inductive Reach (E : List (Nat × Nat)) : Nat → Nat → Prop
  | edge {a b} (h : (a, b) ∈ E) : Reach E a b
  | trans {a b c} (h : Reach E a b) (h2 : Reach E b c) : Reach E a c

/-- the set-up: registrations (stage, phase) in this order, then the given calls; handler `a` is the `a`-th
registration -/
def setup (n nph : Nat) (regs : List (Nat × Nat)) : R :=
  (runOps R.step (R.init n nph) (regs.map fun x => Op.register x.1 x.2)).1

/-- positions of the handlers of a stage and phase -/
def idxs (regs : List (Nat × Nat)) (i ph : Nat) : List Nat :=
  (List.range regs.length).filter fun a => regs[a]? == some (i, ph)

theorem mem_idxs {regs : List (Nat × Nat)} {i ph a : Nat} : a ∈ idxs regs i ph ↔ regs[a]? = some (i, ph) := by
  unfold idxs
  rw [List.mem_filter, List.mem_range]
  constructor
  · intro h; simpa using h.2
  · intro h
    refine ⟨?_, by simpa using h⟩
    obtain ⟨h1, _⟩ := List.getElem?_eq_some_iff.1 h
    exact h1

theorem idxs_snoc (regs : List (Nat × Nat)) (x : Nat × Nat) (i ph : Nat) :
    idxs (regs ++ [x]) i ph = idxs regs i ph ++ (if x = (i, ph) then [regs.length] else []) := by
  unfold idxs
  rw [List.length_append, List.length_singleton, List.range_succ, List.filter_append]
  congr 1
  · apply List.filter_congr
    intro a ha
    rw [List.getElem?_append_left (List.mem_range.1 ha)]
  · rw [List.filter_cons]
    simp

/-- what the registrations leave behind -/
structure Reg (r : R) (n nph : Nat) (regs : List (Nat × Nat)) : Prop where
  n_eq : r.n = n
  nph_eq : r.nph = nph
  next : r.next = regs.length
  mat : ∀ i ph, r.matrix i ph = idxs regs i ph
  cnt : ∀ i, r.count i > 0 ↔ ∃ ph, (i, ph) ∈ regs
  dflt : r.dflt = .none
  chain : ∀ i ph k a b, (idxs regs i ph)[k]? = some a → (idxs regs i ph)[k + 1]? = some b → (a, b) ∈ r.edges
  only : ∀ a b, (a, b) ∈ r.edges → ∃ i ph, regs[a]? = some (i, ph) ∧ regs[b]? = some (i, ph) ∧ a < b

theorem reg_setup (n nph : Nat) (regs : List (Nat × Nat)) (h : ∀ x ∈ regs, x.1 < n) : Reg (setup n nph regs) n nph regs := by
  suffices hs : ∀ l, (∀ x ∈ l, x.1 < n) → Reg (setup n nph l) n nph l from hs regs h
  intro l hl
  obtain ⟨m, hm⟩ : ∃ m, m = l.length := ⟨_, rfl⟩
  induction m generalizing l with
  | zero =>
    have : l = [] := List.length_eq_zero_iff.1 hm.symm
    subst this
    exact ⟨rfl, rfl, rfl, fun _ _ => rfl, fun i => by simp [setup, runOps, R.init], rfl,
      fun _ _ _ _ _ h => by simp [idxs] at h, fun _ _ h => by simp [setup, runOps, R.init] at h⟩
  | succ m ih =>
    have hne : l ≠ [] := by intro e; rw [e] at hm; cases hm
    obtain ⟨l', x, rfl⟩ : ∃ l' x, l = l' ++ [x] := ⟨l.dropLast, l.getLast hne, (List.dropLast_concat_getLast hne).symm⟩
    rw [List.length_append, List.length_singleton] at hm
    have g := ih l' (fun y hy => hl y (List.mem_append_left _ hy)) (by omega)
    obtain ⟨id, ph⟩ := x
    have hx : id < n := hl (id, ph) (by simp)
    have hst : setup n nph (l' ++ [(id, ph)]) = ((setup n nph l').step (.register id ph)).1 := by
      unfold setup
      rw [List.map_append, runOps_append]; rfl
    rw [hst]
    generalize setup n nph l' = r at g
    simp only [R.step, R.register]
    rw [if_pos ⟨g.dflt, by rw [g.n_eq]; exact hx⟩]
    refine ⟨g.n_eq, g.nph_eq, ?_, ?_, ?_, g.dflt, ?_, ?_⟩
    · simp [g.next]
    · intro i p
      dsimp only
      rw [idxs_snoc, ← g.mat, ← g.next]
      unfold upd
      by_cases e1 : i = id
      · subst e1
        by_cases e2 : p = ph
        · subst e2; simp
        · have : ¬ (i, ph) = (i, p) := by simp; exact fun e => e2 e.symm
          rw [if_pos rfl, if_neg e2, if_neg this, List.append_nil]
      · have : ¬ (id, ph) = (i, p) := by simp; exact fun e => absurd e.symm e1
        rw [if_neg e1, if_neg this, List.append_nil]
    · intro i
      dsimp only
      unfold upd
      by_cases e1 : i = id
      · subst e1
        rw [if_pos rfl]
        exact ⟨fun _ => ⟨ph, by simp⟩, fun _ => by omega⟩
      · rw [if_neg e1, g.cnt i]
        constructor
        · rintro ⟨p, hp⟩; exact ⟨p, List.mem_append_left _ hp⟩
        · rintro ⟨p, hp⟩
          rcases List.mem_append.1 hp with h | h
          · exact ⟨p, h⟩
          · simp at h; exact absurd h.1 e1
    · intro i p k a b ha hb
      dsimp only
      rw [g.mat]
      rw [idxs_snoc] at ha hb
      by_cases e : (id, ph) = (i, p)
      · cases e
        rw [if_pos rfl] at ha hb
        by_cases hk : k + 1 < (idxs l' id ph).length
        · rw [List.getElem?_append_left (by omega)] at ha hb
          exact List.mem_append_left _ (g.chain _ _ _ _ _ ha hb)
        · rw [List.getElem?_append_right (by omega)] at hb
          have hk2 : k + 1 = (idxs l' id ph).length := by
            obtain ⟨h1, _⟩ := List.getElem?_eq_some_iff.1 hb
            simp at h1; omega
          rw [hk2, Nat.sub_self] at hb
          simp at hb
          rw [List.getElem?_append_left (by omega)] at ha
          have hlast : (idxs l' id ph).getLast? = some a := by
            rw [List.getLast?_eq_getElem?, ← hk2, Nat.add_sub_cancel]; exact ha
          rw [hlast, g.next, hb]
          exact List.mem_append_right _ (List.mem_singleton.2 rfl)
      · rw [if_neg e, List.append_nil] at ha hb
        exact List.mem_append_left _ (g.chain _ _ _ _ _ ha hb)
    · intro a b hab
      rcases List.mem_append.1 hab with h | h
      · obtain ⟨i, p, h1, h2, h3⟩ := g.only a b h
        obtain ⟨k1, _⟩ := List.getElem?_eq_some_iff.1 h1
        obtain ⟨k2, _⟩ := List.getElem?_eq_some_iff.1 h2
        exact ⟨i, p, by rw [List.getElem?_append_left k1]; exact h1, by rw [List.getElem?_append_left k2]; exact h2, h3⟩
      · rw [g.mat] at h
        cases hlast : (idxs l' id ph).getLast? with
        | none => rw [hlast] at h; cases h
        | some p =>
          rw [hlast] at h
          have h' := List.mem_singleton.1 h
          rw [g.next] at h'
          cases h'
          have hmem := mem_idxs.1 (List.mem_of_getLast? hlast)
          obtain ⟨k1, _⟩ := List.getElem?_eq_some_iff.1 hmem
          refine ⟨id, ph, by rw [List.getElem?_append_left k1]; exact hmem, by simp, k1⟩

/-- more edges, more order -/
theorem Reach.mono {E F : List (Nat × Nat)} (h : ∀ e ∈ E, e ∈ F) {a b : Nat} (r : Reach E a b) : Reach F a b := by
  induction r with
  | edge he => exact .edge (h _ he)
  | trans _ _ ih1 ih2 => exact .trans ih1 ih2

theorem idxs_sorted (regs : List (Nat × Nat)) (i ph : Nat) : (idxs regs i ph).Pairwise (· < ·) :=
  List.Pairwise.filter _ List.pairwise_lt_range

/-- chain inside a stage -/
theorem chain_reach {l : List Nat} {E : List (Nat × Nat)}
    (h : ∀ k a b, l[k]? = some a → l[k + 1]? = some b → (a, b) ∈ E) (p d : Nat) {a b : Nat}
    (ha : l[p]? = some a) (hb : l[p + (d + 1)]? = some b) : Reach E a b := by
  induction d generalizing b with
  | zero => exact .edge (h p a b ha hb)
  | succ d ih =>
    obtain ⟨hlt, _⟩ := List.getElem?_eq_some_iff.1 hb
    have hc : l[p + (d + 1)]? = some l[p + (d + 1)] := List.getElem?_eq_getElem (by omega)
    exact .trans (ih hc) (.edge (h _ _ _ hc hb))

theorem stage_reach {r : R} {n nph : Nat} {regs : List (Nat × Nat)} (g : Reg r n nph regs) {i ph a b : Nat}
    (ha : regs[a]? = some (i, ph)) (hb : regs[b]? = some (i, ph)) (hab : a < b) : Reach r.edges a b := by
  obtain ⟨p, hp⟩ := List.mem_iff_getElem?.1 (mem_idxs.2 ha)
  obtain ⟨q, hq⟩ := List.mem_iff_getElem?.1 (mem_idxs.2 hb)
  have hpq : p < q := by
    have hs := idxs_sorted regs i ph
    obtain ⟨h1, e1⟩ := List.getElem?_eq_some_iff.1 hp
    obtain ⟨h2, e2⟩ := List.getElem?_eq_some_iff.1 hq
    rcases Nat.lt_trichotomy p q with h | h | h
    · exact h
    · subst h; rw [e1] at e2; omega
    · have := List.pairwise_iff_getElem.1 hs q p h2 h1 h
      rw [e1, e2] at this; omega
  obtain ⟨d, hd⟩ : ∃ d, q = p + (d + 1) := ⟨q - p - 1, by omega⟩
  subst hd
  exact chain_reach (fun k x y hx hy => g.chain i ph k x y hx hy) p d hp hq

/-- a handler is, or precedes, the last one of its stage and phase -/
theorem to_last {r : R} {n nph : Nat} {regs : List (Nat × Nat)} (g : Reg r n nph regs) {i ph a : Nat}
    (ha : regs[a]? = some (i, ph)) : ∃ z, (idxs regs i ph).getLast? = some z ∧ (a = z ∨ Reach r.edges a z) := by
  have hm := mem_idxs.2 ha
  have hne : idxs regs i ph ≠ [] := List.ne_nil_of_mem hm
  obtain ⟨z, hz⟩ : ∃ z, (idxs regs i ph).getLast? = some z := ⟨_, List.getLast?_eq_some_getLast hne⟩
  refine ⟨z, hz, ?_⟩
  have hzr := mem_idxs.1 (List.mem_of_getLast? hz)
  by_cases e : a = z
  · exact Or.inl e
  · right
    obtain ⟨p, hp⟩ := List.mem_iff_getElem?.1 hm
    rw [List.getLast?_eq_getElem?] at hz
    have hs := idxs_sorted regs i ph
    obtain ⟨h1, e1⟩ := List.getElem?_eq_some_iff.1 hp
    obtain ⟨h2, e2⟩ := List.getElem?_eq_some_iff.1 hz
    have hpl : p < (idxs regs i ph).length - 1 := by
      apply Classical.byContradiction
      intro hc
      have : p = (idxs regs i ph).length - 1 := by omega
      subst this
      exact e (e1.symm.trans e2)
    have := List.pairwise_iff_getElem.1 hs p _ h1 h2 hpl
    rw [e1, e2] at this
    exact stage_reach g ha hzr this

/-- the first handler of a stage and phase is, or precedes, every other -/
theorem from_first {r : R} {n nph : Nat} {regs : List (Nat × Nat)} (g : Reg r n nph regs) {i ph b : Nat}
    (hb : regs[b]? = some (i, ph)) : ∃ z, (idxs regs i ph).head? = some z ∧ (z = b ∨ Reach r.edges z b) := by
  have hm := mem_idxs.2 hb
  cases hl : idxs regs i ph with
  | nil => rw [hl] at hm; cases hm
  | cons z l =>
    refine ⟨z, rfl, ?_⟩
    have hzr := mem_idxs.1 (show z ∈ idxs regs i ph by rw [hl]; exact List.mem_cons_self ..)
    rw [hl] at hm
    rcases List.mem_cons.1 hm with h | h
    · exact Or.inl h.symm
    · right
      have hs := idxs_sorted regs i ph
      rw [hl] at hs
      exact stage_reach g hzr hb (List.rel_of_pairwise_cons hs h)

theorem mem_link (r : R) (pid cid : Nat) (phs : List Nat) (a b : Nat) :
    (a, b) ∈ r.link pid cid phs ↔
      ∃ ph ∈ phs, (r.matrix pid ph).getLast? = some a ∧ (r.matrix cid ph).head? = some b := by
  induction phs with
  | nil => simp [R.link]
  | cons p phs ih =>
    unfold R.link
    rw [List.mem_append, ih]
    cases h1 : (r.matrix pid p).getLast? <;> cases h2 : (r.matrix cid p).head? <;> simp [h1, h2, eq_comm]

/-- what a link between two stages gives -/
theorem link_reach {r : R} {n nph : Nat} {regs : List (Nat × Nat)} (g : Reg r n nph regs) {i j ph a b : Nat}
    (hph : ph < nph) (ha : regs[a]? = some (i, ph)) (hb : regs[b]? = some (j, ph)) {E : List (Nat × Nat)}
    (h1 : ∀ e ∈ r.edges, e ∈ E) (h2 : ∀ e ∈ r.link i j (List.range nph), e ∈ E) : Reach E a b := by
  obtain ⟨z, hz, haz⟩ := to_last g ha
  obtain ⟨y, hy, hyb⟩ := from_first g hb
  have he : Reach E z y := by
    refine .edge (h2 _ ((mem_link r i j _ z y).2 ⟨ph, List.mem_range.2 hph, ?_, ?_⟩))
    · rw [g.mat]; exact hz
    · rw [g.mat]; exact hy
  have h3 : Reach E a y := by
    rcases haz with h | h
    · rw [h]; exact he
    · exact .trans (h.mono h1) he
  rcases hyb with h | h
  · rw [← h]; exact h3
  · exact .trans h3 (h.mono h1)

/-- consecutive stages with handlers -/
def Consec (r : R) (i j : Nat) : Prop := i < j ∧ r.count i > 0 ∧ r.count j > 0 ∧ ∀ k, i < k → k < j → r.count k = 0

/-- edges of the default precedence -/
def dlink (fwd : Bool) (r : R) (i j : Nat) : List (Nat × Nat) :=
  if fwd then r.link i j (List.range r.nph) else r.link j i (List.range r.nph)

theorem link_edges (r : R) (E : List (Nat × Nat)) (i j : Nat) (phs : List Nat) :
    R.link { r with edges := E } i j phs = r.link i j phs := by
  induction phs with
  | nil => rfl
  | cons p phs ih => unfold R.link; rw [ih]

/-- the loop adds exactly the links between consecutive stages with handlers -/
theorem defaultLoop_spec (fwd : Bool) (fuel : Nat) (r : R) (pid cid : Nat) (hd : r.dflt = .none)
    (hpc : pid < cid) (hfuel : 2 * r.n < fuel + pid + cid) (hf0 : 0 < fuel)
    (hbetween : ∀ k, pid < k → k < cid → r.count k = 0)
    (hempty : r.count pid = 0 → ∀ k, k ≤ pid → r.count k = 0) :
    ∃ E, defaultLoop fwd fuel r pid cid = some { r with edges := r.edges ++ E } ∧
      (∀ i j, Consec r i j → cid ≤ j → j < r.n → ∀ e ∈ dlink fwd r i j, e ∈ E) ∧
      (∀ e ∈ E, ∃ i j, i < j ∧ e ∈ dlink fwd r i j) := by
  induction fuel generalizing r pid cid with
  | zero => omega
  | succ fuel ih =>
    unfold defaultLoop
    by_cases hc : cid < r.n
    · rw [if_pos hc]
      by_cases hp : r.count pid = 0
      · rw [if_pos hp]
        dsimp only
        have hall := hempty hp
        obtain ⟨E, h1, h2, h3⟩ := ih r (pid + 1) (if pid + 1 = cid then cid + 1 else cid) hd
          (by split <;> omega) (by split <;> omega) (by omega)
          (fun k hk hk2 => by
            split at hk2
            · omega
            · exact hbetween k (by omega) hk2)
          (fun h0 k hk => by
            by_cases e : k = pid + 1
            · rw [e]; exact h0
            · exact hall k (by omega))
        refine ⟨E, h1, fun i j hcon hj hjn => h2 i j hcon ?_ hjn, h3⟩
        split
        · rename_i e
          by_cases ej : j = cid
          · exfalso
            have := hall i (by have := hcon.1; omega)
            have := hcon.2.1
            omega
          · omega
        · exact hj
      · rw [if_neg hp]
        by_cases hcc : r.count cid = 0
        · rw [if_pos hcc]
          dsimp only
          rw [if_neg (show ¬ pid = cid + 1 by omega)]
          obtain ⟨E, h1, h2, h3⟩ := ih r pid (cid + 1) hd (by omega) (by omega) (by omega)
            (fun k hk hk2 => by
              by_cases e : k = cid
              · rw [e]; exact hcc
              · exact hbetween k hk (by omega))
            hempty
          refine ⟨E, h1, fun i j hcon hj hjn => h2 i j hcon ?_ hjn, h3⟩
          by_cases ej : j = cid
          · have := hcon.2.2.1
            rw [ej] at this; omega
          · omega
        · rw [if_neg hcc]
          have hb : (if fwd then r.between pid cid else r.between cid pid) =
              some { r with edges := r.edges ++ dlink fwd r pid cid } := by
            unfold R.between dlink
            have c1 : r.dflt = Dir.none ∧ pid ≠ cid ∧ pid < r.n ∧ r.count pid > 0 ∧ cid < r.n ∧ r.count cid > 0 :=
              ⟨hd, by omega, by omega, by omega, hc, by omega⟩
            have c2 : r.dflt = Dir.none ∧ cid ≠ pid ∧ cid < r.n ∧ r.count cid > 0 ∧ pid < r.n ∧ r.count pid > 0 :=
              ⟨hd, by omega, by omega, by omega, by omega, by omega⟩
            rw [if_pos c1, if_pos c2]
            cases fwd <;> rfl
          rw [hb, Option.bind_some]
          obtain ⟨E, h1, h2, h3⟩ := ih { r with edges := r.edges ++ dlink fwd r pid cid } cid (cid + 1) hd (by omega)
            (by show 2 * r.n < _; omega) (by omega) (fun k hk hk2 => by omega) (fun h0 => absurd h0 hcc)
          have hdl : ∀ i j, dlink fwd { r with edges := r.edges ++ dlink fwd r pid cid } i j = dlink fwd r i j := by
            intro i j
            cases fwd <;> simp [dlink, link_edges]
          refine ⟨dlink fwd r pid cid ++ E, ?_, ?_, ?_⟩
          · rw [h1]
            simp
          · intro i j hcon hj hjn e he
            by_cases ej : j = cid
            · have hi : i = pid := by
                have h4 := hcon.2.2.2
                rcases Nat.lt_trichotomy i pid with h | h | h
                · exfalso
                  have := h4 pid h (by omega)
                  omega
                · exact h
                · exfalso
                  have := hbetween i h (by have := hcon.1; omega)
                  have := hcon.2.1
                  omega
              rw [ej, hi] at he
              exact List.mem_append_left _ he
            · refine List.mem_append_right _ (h2 i j hcon (by omega) hjn e ?_)
              rw [hdl]; exact he
          · intro e he
            rcases List.mem_append.1 he with h | h
            · exact ⟨pid, cid, hpc, h⟩
            · obtain ⟨i, j, hij, h'⟩ := h3 e h
              rw [hdl] at h'
              exact ⟨i, j, hij, h'⟩
    · rw [if_neg hc]
      exact ⟨[], by simp, fun i j _ h1 h2 => by omega, fun e he => by cases he⟩

theorem setDefault_spec {r : R} {n nph : Nat} {regs : List (Nat × Nat)} (g : Reg r n nph regs) (d : Dir)
    (hd : d ≠ .none) :
    ∃ E, (r.step (.setDefault d)) = ({ r with edges := r.edges ++ E, dflt := d }, true) ∧
      (∀ i j, Consec r i j → j < r.n → ∀ e ∈ dlink (d = .forward) r i j, e ∈ E) ∧
      (∀ e ∈ E, ∃ i j, i < j ∧ e ∈ dlink (d = .forward) r i j) := by
  obtain ⟨E, h1, h2, h3⟩ := defaultLoop_spec (d = .forward) (2 * r.n + 1) r 0 1 g.dflt (by omega) (by omega) (by omega)
    (fun k h1 h2 => by omega) (fun h0 k hk => by
      have : k = 0 := by omega
      rw [this]; exact h0)
  refine ⟨E, ?_, ?_, h3⟩
  · simp only [R.step, R.setDefault]
    rw [if_neg hd, h1]
    rfl
  · intro i j hc hj
    exact h2 i j hc (by have := hc.1; omega) hj

/-- a stage with handlers in every occupied stage between: reachable through consecutive stages -/
theorem walk {r : R} {n nph : Nat} {regs : List (Nat × Nat)} (g : Reg r n nph regs) (hr : ∀ x ∈ regs, x.1 < n)
    (fwd : Bool) {E : List (Nat × Nat)} {ph : Nat} (hph : ph < nph)
    (h1 : ∀ e ∈ r.edges, e ∈ E) (h2 : ∀ i j, Consec r i j → j < r.n → ∀ e ∈ dlink fwd r i j, e ∈ E)
    (len : Nat) : ∀ (i j a b : Nat), j - i ≤ len → i < j → regs[a]? = some (i, ph) → regs[b]? = some (j, ph) →
      (∀ x ∈ regs, i ≤ x.1 → x.1 ≤ j → (x.1, ph) ∈ regs) →
      if fwd then Reach E a b else Reach E b a := by
  induction len with
  | zero => intro i j a b h1 h2; omega
  | succ len ih =>
    intro i j a b hlen hij ha hb hall
    have hai : r.count i > 0 := (g.cnt i).2 ⟨ph, List.mem_of_getElem? ha⟩
    have hbj : r.count j > 0 := (g.cnt j).2 ⟨ph, List.mem_of_getElem? hb⟩
    have hjn : j < r.n := by rw [g.n_eq]; exact hr _ (List.mem_of_getElem? hb)
    -- a stage with handlers strictly between, or the two are consecutive
    by_cases hmid : ∃ k, i < k ∧ k < j ∧ r.count k > 0
    · obtain ⟨k, hk1, hk2, hk3⟩ := hmid
      obtain ⟨p, hp⟩ := (g.cnt k).1 hk3
      have hkp := hall (k, p) hp (by show i ≤ k; omega) (by show k ≤ j; omega)
      obtain ⟨c, hc⟩ := List.mem_iff_getElem?.1 hkp
      have r1 := ih i k a c (by omega) hk1 ha hc (fun x hx h3 h4 => hall x hx h3 (by omega))
      have r2 := ih k j c b (by omega) hk2 hc hb (fun x hx h3 h4 => hall x hx (by omega) h4)
      cases fwd with
      | true => exact .trans r1 r2
      | false => exact .trans r2 r1
    · have hcon : Consec r i j := ⟨hij, hai, hbj, fun k h3 h4 => by
        apply Classical.byContradiction
        intro hne
        exact hmid ⟨k, h3, h4, by omega⟩⟩
      have hl := h2 i j hcon hjn
      unfold dlink at hl
      rw [g.nph_eq] at hl
      cases fwd with
      | true => exact link_reach g hph ha hb h1 hl
      | false => exact link_reach g hph hb ha h1 hl

/-- C81 (partial: between the two stages every stage with handlers has one in that phase). After
setDefaultStagePrecedence(FORWARD) a handler of an earlier stage precedes every handler of a later stage in
the same phase; with BACKWARD it is the other way round. -/
theorem C81_default_partial (n nph : Nat) (regs : List (Nat × Nat)) (hr : ∀ x ∈ regs, x.1 < n ∧ x.2 < nph)
    (i j ph a b : Nat) (hij : i < j) (ha : regs[a]? = some (i, ph)) (hb : regs[b]? = some (j, ph))
    (hall : ∀ x ∈ regs, i ≤ x.1 → x.1 ≤ j → (x.1, ph) ∈ regs) :
    (((setup n nph regs).step (.setDefault .forward)).2 = true ∧
      Reach ((setup n nph regs).step (.setDefault .forward)).1.edges a b) ∧
    (((setup n nph regs).step (.setDefault .backward)).2 = true ∧
      Reach ((setup n nph regs).step (.setDefault .backward)).1.edges b a) := by
  have g := reg_setup n nph regs (fun x hx => (hr x hx).1)
  have hph : ph < nph := (hr _ (List.mem_of_getElem? ha)).2
  constructor
  · obtain ⟨E, h1, h2, _⟩ := setDefault_spec g .forward (by decide)
    rw [h1]
    refine ⟨rfl, ?_⟩
    have := walk g (fun x hx => (hr x hx).1) true (E := (setup n nph regs).edges ++ E) hph
      (fun e he => List.mem_append_left _ he)
      (fun i j hc hj e he => List.mem_append_right _ (h2 i j hc hj e he)) (j - i) i j a b (Nat.le_refl _) hij ha hb hall
    exact this
  · obtain ⟨E, h1, h2, _⟩ := setDefault_spec g .backward (by decide)
    rw [h1]
    refine ⟨rfl, ?_⟩
    have := walk g (fun x hx => (hr x hx).1) false (E := (setup n nph regs).edges ++ E) hph
      (fun e he => List.mem_append_left _ he)
      (fun i j hc hj e he => List.mem_append_right _ (h2 i j hc hj e he)) (j - i) i j a b (Nat.le_refl _) hij ha hb hall
    exact this

/-- C81: handlers of one stage in one phase run in the order of registration. -/
theorem C81_stage_order (n nph : Nat) (regs : List (Nat × Nat)) (hr : ∀ x ∈ regs, x.1 < n)
    (i ph a b : Nat) (ha : regs[a]? = some (i, ph)) (hb : regs[b]? = some (i, ph)) (hab : a < b) :
    Reach (setup n nph regs).edges a b :=
  stage_reach (reg_setup n nph regs hr) ha hb hab

/-- C81: setPrecedenceBetweenStage orders every handler of the one stage before every handler of the other in
the same phase. -/
theorem C81_between (n nph : Nat) (regs : List (Nat × Nat)) (hr : ∀ x ∈ regs, x.1 < n ∧ x.2 < nph)
    (p c ph a b : Nat) (hpc : p ≠ c) (ha : regs[a]? = some (p, ph)) (hb : regs[b]? = some (c, ph)) :
    ((setup n nph regs).step (.between p c)).2 = true ∧
      Reach ((setup n nph regs).step (.between p c)).1.edges a b := by
  have g := reg_setup n nph regs (fun x hx => (hr x hx).1)
  have ha' := List.mem_of_getElem? ha
  have hb' := List.mem_of_getElem? hb
  simp only [R.step, R.between]
  rw [if_pos ⟨g.dflt, hpc, by rw [g.n_eq]; exact (hr _ ha').1, (g.cnt p).2 ⟨ph, ha'⟩, by rw [g.n_eq]; exact (hr _ hb').1,
    (g.cnt c).2 ⟨ph, hb'⟩⟩]
  refine ⟨rfl, ?_⟩
  dsimp only
  rw [g.nph_eq]
  exact link_reach g (hr _ ha').2 ha hb (fun e he => List.mem_append_left _ he) (fun e he => List.mem_append_right _ he)

/-- position order of handlers: by stage (ascending or descending), then by registration -/
def Before (fwd : Bool) (regs : List (Nat × Nat)) (a b : Nat) : Prop :=
  ∃ i j ph, regs[a]? = some (i, ph) ∧ regs[b]? = some (j, ph) ∧
    ((if fwd then i < j else j < i) ∨ (i = j ∧ a < b))

theorem Before.trans {fwd : Bool} {regs : List (Nat × Nat)} {a b c : Nat} (h : Before fwd regs a b)
    (h2 : Before fwd regs b c) : Before fwd regs a c := by
  obtain ⟨i, j, ph, h3, h4, h5⟩ := h
  obtain ⟨i', j', ph', h6, h7, h8⟩ := h2
  rw [h4] at h6
  cases h6
  refine ⟨i, j', ph, h3, h7, ?_⟩
  cases fwd <;> simp only [Bool.false_eq_true, if_false, if_true] at h5 h8 ⊢ <;> omega

/-- C81: the declared order never contradicts itself or crosses phases: a handler ordered before another is in
the same phase and in an earlier stage (FORWARD; later for BACKWARD), or in the same stage and registered
earlier. In particular there are no cycles. -/
theorem C81_consistent (n nph : Nat) (regs : List (Nat × Nat)) (hr : ∀ x ∈ regs, x.1 < n) (fwd : Bool) (a b : Nat)
    (h : Reach ((setup n nph regs).step (.setDefault (if fwd then .forward else .backward))).1.edges a b) :
    Before fwd regs a b := by
  have g := reg_setup n nph regs hr
  obtain ⟨E, h1, _, h3⟩ := setDefault_spec g (if fwd then .forward else .backward) (by cases fwd <;> decide)
  rw [h1] at h
  dsimp only at h
  have hf : (decide ((if fwd = true then Dir.forward else Dir.backward) = Dir.forward)) = fwd := by cases fwd <;> decide
  rw [hf] at h3
  generalize hF : (setup n nph regs).edges ++ E = F at h
  induction h with
  | edge he =>
    rename_i x y
    rw [← hF] at he
    rcases List.mem_append.1 he with h' | h'
    · obtain ⟨i, ph, a1, a2, a3⟩ := g.only _ _ h'
      exact ⟨i, i, ph, a1, a2, Or.inr ⟨rfl, a3⟩⟩
    · obtain ⟨i, j, hij, hl⟩ := h3 _ h'
      unfold dlink at hl
      cases fwd with
      | true =>
        rw [if_pos rfl] at hl
        obtain ⟨ph, _, a1, a2⟩ := (mem_link _ _ _ _ _ _).1 hl
        rw [g.mat] at a1 a2
        exact ⟨i, j, ph, mem_idxs.1 (List.mem_of_getLast? a1), mem_idxs.1 (List.mem_of_head? a2), Or.inl hij⟩
      | false =>
        rw [if_neg (by simp)] at hl
        obtain ⟨ph, _, a1, a2⟩ := (mem_link _ _ _ _ _ _).1 hl
        rw [g.mat] at a1 a2
        exact ⟨j, i, ph, mem_idxs.1 (List.mem_of_getLast? a1), mem_idxs.1 (List.mem_of_head? a2), Or.inl hij⟩
  | trans _ _ ih1 ih2 => exact ih1.trans ih2

/-- five handlers in the same phase at stages 0, 2, 3 of five -/
example : (∀ x ∈ [(2, 5), (0, 5), (3, 5), (2, 5), (0, 5)], x.1 < 5 ∧ x.2 < 7) ∧
    ((setup 5 7 [(2, 5), (0, 5), (3, 5), (2, 5), (0, 5)]).step (.setDefault .forward)).1.edges
      = [(0, 3), (1, 4), (4, 0), (3, 2)] := by decide

/-- C81: without the extra hypothesis the claim fails. A stage whose handlers are all in another phase breaks
the chain: the handlers of stages 0 and 2 in the same phase are not ordered at all. -/
theorem C81_phase_gap_violated :
    ((setup 3 7 [(0, 5), (1, 3), (2, 5)]).step (.setDefault .forward)).2 = true ∧
      ¬ Reach ((setup 3 7 [(0, 5), (1, 3), (2, 5)]).step (.setDefault .forward)).1.edges 0 2 := by
  refine ⟨by decide, ?_⟩
  have : ((setup 3 7 [(0, 5), (1, 3), (2, 5)]).step (.setDefault .forward)).1.edges = [] := by decide
  rw [this]
  have key : ∀ a b, ¬ Reach [] a b := by
    intro a b h
    induction h with
    | edge he => cases he
    | trans _ _ ih _ => exact ih
  exact key 0 2

end Sparta.Pipeline.Prec
