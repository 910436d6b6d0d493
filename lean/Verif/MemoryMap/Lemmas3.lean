import Verif.MemoryMap.Lemmas2

/-!
The red-black fixup: it ends without failing, keeps the order of the nodes and restores the balance.
-/

namespace Sparta.MemoryMap

/-- Red-black tree of black height `n`: red nodes have no red child, all paths have `n` black
nodes. -/
def RB : T → Nat → Prop
  | .leaf, n => n = 0
  | .node _ _ c l r, n =>
    (c = true ∧ l.red = false ∧ r.red = false ∧ RB l n ∧ RB r n) ∨
      (c = false ∧ ∃ m, n = m + 1 ∧ RB l m ∧ RB r m)

theorem rb_nd {d i k c a b n} : RB (T.nd d i k c a b) n ↔
    (c = true ∧ a.red = false ∧ b.red = false ∧ RB a n ∧ RB b n) ∨
      (c = false ∧ ∃ m, n = m + 1 ∧ RB a m ∧ RB b m) := by
  cases d
  · simp only [T.nd, RB, Bool.false_eq_true, if_false]
    constructor
    · rintro (⟨h, h1, h2, h3, h4⟩ | ⟨h, m, h1, h2, h3⟩)
      · exact Or.inl ⟨h, h2, h1, h4, h3⟩
      · exact Or.inr ⟨h, m, h1, h3, h2⟩
    · rintro (⟨h, h1, h2, h3, h4⟩ | ⟨h, m, h1, h2, h3⟩)
      · exact Or.inl ⟨h, h2, h1, h4, h3⟩
      · exact Or.inr ⟨h, m, h1, h3, h2⟩
  · simp only [T.nd, RB, if_true]

@[simp] theorem red_nd (d i k c a b) : (T.nd d i k c a b).red = c := by cases d <;> rfl

theorem nd_not (d i k c a b) : T.nd (!d) i k c a b = T.nd d i k c b a := by cases d <;> rfl

def topRed : List Frame → Bool
  | [] => false
  | f :: _ => f.c

/-- The path is that of a red-black tree with black root, for a hole of black height `n`. -/
def RBC : List Frame → Nat → Prop
  | [], _ => True
  | f :: fs, n => RB f.s n ∧ (f.c = true → f.s.red = false ∧ fs ≠ [] ∧ topRed fs = false) ∧
      RBC fs (if f.c then n else n + 1)

theorem plug_rb {t : T} {fs : List Frame} {n : Nat} (h : RB t n) (hc : RBC fs n)
    (ht : topRed fs = true → t.red = false) :
    (∃ n', RB (plug t fs) n') ∧ (fs ≠ [] → (plug t fs).red = false) := by
  induction fs generalizing t n with
  | nil => exact ⟨⟨n, h⟩, fun h => absurd rfl h⟩
  | cons f fs ih =>
    obtain ⟨h1, h2, h3⟩ := hc
    have hrb : RB (T.nd f.d f.i f.k f.c t f.s) (if f.c then n else n + 1) := by
      rw [rb_nd]
      cases hfc : f.c with
      | true => exact Or.inl ⟨rfl, ht hfc, (h2 hfc).1, h, h1⟩
      | false => exact Or.inr ⟨rfl, n, rfl, h, h1⟩
    have hr := ih hrb h3 (by
      intro htr
      rw [red_nd]
      cases hfc : f.c with
      | false => rfl
      | true => rw [(h2 hfc).2.2] at htr; cases htr)
    refine ⟨hr.1, fun _ => ?_⟩
    by_cases hfs : fs = []
    · subst hfs
      rw [plug, plug, red_nd]
      cases hfc : f.c with
      | false => rfl
      | true => exact absurd rfl (h2 hfc).2.1
    · exact hr.2 hfs

theorem unplug_rb {t : T} {fs : List Frame} {n' : Nat} (h : RB (plug t fs) n')
    (hb : (plug t fs).red = false) :
    ∃ n, RB t n ∧ RBC fs n ∧ (topRed fs = true → t.red = false) ∧ (fs = [] → t.red = false) := by
  induction fs generalizing t n' with
  | nil => exact ⟨n', h, trivial, (fun h => by cases h), fun _ => hb⟩
  | cons f fs ih =>
    obtain ⟨m, h1, h2, h3, h4⟩ := ih h hb
    rw [rb_nd] at h1
    rw [red_nd] at h3 h4
    rcases h1 with ⟨hc, ha, hs, ra, rs⟩ | ⟨hc, k, e, ra, rs⟩
    · refine ⟨m, ra, ⟨rs, fun _ => ⟨hs, ?_, ?_⟩, ?_⟩, fun _ => ha, (fun h => by cases h)⟩
      · intro hf; rw [h4 hf] at hc; cases hc
      · cases ht : topRed fs with
        | false => rfl
        | true => rw [h3 ht] at hc; cases hc
      · rw [if_pos hc]; exact h2
    · refine ⟨k, ra, ⟨rs, (fun h => by rw [hc] at h; cases h), ?_⟩,
        (fun h => by rw [topRed, hc] at h; cases h), (fun h => by cases h)⟩
      rw [if_neg (by rw [hc]; simp), ← e]; exact h2

theorem root_plug_mem (t : T) (f : Frame) (fs : List Frame) :
    ∃ r, (plug t (f :: fs)).root = some r ∧ r ∈ idsC (f :: fs) := by
  induction fs generalizing t f with
  | nil => exact ⟨f.i, by simp [plug], idsC_cons.2 (Or.inl rfl)⟩
  | cons g fs ih =>
    obtain ⟨r, h1, h2⟩ := ih (T.nd f.d f.i f.k f.c t f.s) g
    exact ⟨r, h1, idsC_cons.2 (Or.inr (Or.inr h2))⟩

theorem TRep.focus {s t fs} (H : TRep s (plug t fs)) : RepC s.h fs t.root ∧ Rep s.h (par fs) t :=
  rep_plug.1 H.rep

theorem rep_parent {h p t n} (H : Rep h p t) (hn : t.root = some n) : (h n).parent = p := by
  cases t with
  | leaf => cases hn
  | node i k c l r =>
    have : i = n := by simpa [T.root] using hn
    subst this; rw [H.1]

theorem root_ne {s : Tree} {t f fs n} (H : TRep s (plug t (f :: fs))) (hn : t.root = some n) :
    s.root ≠ some n := by
  rw [H.root]
  obtain ⟨r, h1, h2⟩ := root_plug_mem t f fs
  rw [h1]
  intro e
  have : r = n := by simpa using e
  exact (nodup_plug.1 H.nodup).2.2 n (root_mem hn) (this ▸ h2)

/-- The loop stops below a black parent. -/
theorem fixLoop_exit {s : Tree} {t f fs n fuel} (H : TRep s (plug t (f :: fs)))
    (hn : t.root = some n) (hf : f.c = false) : fixLoop (fuel + 1) s n = some s := by
  have hp := rep_parent H.focus.2 hn
  have hfi := H.focus.1.1
  rw [fixLoop, if_neg (root_ne H hn), hp]
  simp only [par]
  rw [if_pos (by rw [hfi, red_mkNode]; exact hf)]

/-- Case 3 of the fixup. -/
theorem case3 {s : Tree} {d : Bool} {g p n : Nat} {kg cg kp cp x y z fs}
    (H : TRep s (plug (T.nd d g kg cg (T.nd d p kp cp x y) z) fs)) (hn : x.root = some n) :
    (s.h n).parent = some p ∧ ((s.setRed p false).h p).parent = some g ∧
      ∃ s', rotate d ((s.setRed p false).setRed g true) g = some s' ∧ s'.next = s.next ∧
        TRep s' (plug (T.nd d p kp false x (T.nd d g kg true y z)) fs) := by
  have h1 := H.focus.2
  rw [rep_nd, rep_nd] at h1
  have H1 : TRep (s.setRed p false) (plug (T.nd d p kp false x y) (⟨d, g, kg, cg, z⟩ :: fs)) :=
    setRed_rep (fs := ⟨d, g, kg, cg, z⟩ :: fs) H
  have H2 : TRep ((s.setRed p false).setRed g true)
      (plug (T.nd d g kg true (T.nd d p kp false x y) z) fs) := setRed_rep H1
  obtain ⟨s', e1, e2, e3⟩ := rotate_rep H2
  refine ⟨rep_parent h1.2.1.2.1 hn, ?_, s', e1, e2, e3⟩
  have := H1.focus.2
  rw [rep_nd] at this
  rw [this.1, parent_mkNode]; rfl

/-- Cases 2 and 3: the subtree below the grandparent afterwards. -/
theorem fixRotate_rep {s : Tree} {d : Bool} {g p n : Nat} {kg kp kn a b us z fs} (e : Bool)
    (H : TRep s (plug (T.nd d g kg false (T.nd e p kp true (T.node n kn true a b) us) z) fs)) :
    ∃ s' n' q kq x y, fixRotate d s n p = some (s', n') ∧ s'.next = s.next ∧ x.root = some n' ∧
      TRep s' (plug x (⟨d, q, kq, false, T.nd d g kg true y z⟩ :: fs)) ∧
      (∀ k, a.red = false → b.red = false → us.red = false → RB a k → RB b k → RB us k →
        RB x k ∧ RB y k ∧ y.red = false) ∧
      (plug x (⟨d, q, kq, false, T.nd d g kg true y z⟩ :: fs)).io =
        (plug (T.nd d g kg false (T.nd e p kp true (T.node n kn true a b) us) z) fs).io := by
  have h1 := H.focus.2
  rw [rep_nd, rep_nd] at h1
  have hp := h1.2.1.1
  have hnt := (nodup_plug.1 H.nodup).1
  rw [nodup_nd, nodup_nd] at hnt
  by_cases hed : e = d
  · subst hed
    have hne : (s.h p).ch (!e) ≠ some n := by
      rw [hp, ch_mkNode_not]
      intro h
      exact hnt.2.2.1.2.2.2.2 n (root_mem rfl) (root_mem h)
    obtain ⟨c1, c2, s', c3, c4, c5⟩ := case3 (n := n) H rfl
    refine ⟨s', n, p, kp, .node n kn true a b, us, ?_, c4, rfl, c5, ?_, ?_⟩
    · rw [fixRotate]
      simp only [if_neg hne, c1, c2, c3, Option.map_some]
    · intro k ha hb hu ra rb ru
      exact ⟨Or.inl ⟨rfl, ha, hb, ra, rb⟩, ru, hu⟩
    · rw [plug, io_plug, io_plug]
      cases e <;> simp [T.nd, T.io]
  · have hed' : e = !d := by revert hed; cases e <;> cases d <;> simp
    subst hed'
    have heq : (s.h p).ch (!d) = some n := by rw [hp, ch_mkNode]; rfl
    obtain ⟨x, y, hxy, hio⟩ : ∃ x y, T.node n kn true a b = T.nd (!d) n kn true x y ∧
        ((x = a ∧ y = b) ∨ (x = b ∧ y = a)) := by
      cases d
      · exact ⟨a, b, rfl, Or.inl ⟨rfl, rfl⟩⟩
      · exact ⟨b, a, rfl, Or.inr ⟨rfl, rfl⟩⟩
    rw [hxy] at H ⊢
    obtain ⟨s1, e1, e2, H1⟩ := rotate_rep (fs := ⟨d, g, kg, false, z⟩ :: fs) H
    rw [nd_not d n] at H1
    obtain ⟨c1, c2, s', c3, c4, c5⟩ := case3 (n := p) H1 (by simp)
    refine ⟨s', p, n, kn, T.nd (!d) p kp true y us, x, ?_, by rw [c4, e2], by simp, c5, ?_, ?_⟩
    · rw [fixRotate]
      simp only [if_pos heq, e1, Option.map_some, c1, c2, c3]
    · intro k ha hb hu ra rb ru
      rcases hio with ⟨rfl, rfl⟩ | ⟨rfl, rfl⟩
      · exact ⟨rb_nd.2 (Or.inl ⟨rfl, hb, hu, rb, ru⟩), ra, ha⟩
      · exact ⟨rb_nd.2 (Or.inl ⟨rfl, ha, hu, ra, ru⟩), rb, hb⟩
    · rw [plug, io_plug, io_plug]
      cases d <;> simp [T.nd, T.io]

theorem isRed_rep {s : Tree} {p t} (H : Rep s.h p t) : s.isRed t.root = t.red := by
  cases t with
  | leaf => rfl
  | node i k c l r => simp [T.root, Tree.isRed, H.1, T.red]

/-- The loop of the fixup. -/
theorem fixLoop_spec : ∀ (fuel : Nat) (fs : List Frame) (s : Tree) (n : Nat) (kn : Key) (a b : T)
    (k : Nat), TRep s (plug (.node n kn true a b) fs) → a.red = false → b.red = false →
    RB a k → RB b k → RBC fs k → fs.length < fuel →
    ∃ s' t', fixLoop fuel s n = some s' ∧ TRep s' t' ∧ s'.next = s.next ∧
      t'.io = (plug (.node n kn true a b) fs).io ∧ ∃ k', RB t' k' := by
  intro fuel
  induction fuel with
  | zero => intro fs s n kn a b k _ _ _ _ _ _ h; exact absurd h (Nat.not_lt_zero _)
  | succ fuel ih =>
    intro fs s n kn a b k H ha hb ra rb rc hl
    have rt : RB (.node n kn true a b) k := Or.inl ⟨rfl, ha, hb, ra, rb⟩
    cases fs with
    | nil =>
      refine ⟨s, _, ?_, H, rfl, rfl, k, rt⟩
      rw [fixLoop, if_pos (by rw [H.root]; rfl)]
    | cons f fs =>
      cases hfc : f.c with
      | false =>
        refine ⟨s, _, fixLoop_exit H rfl hfc, H, rfl, rfl, ?_⟩
        exact (plug_rb rt rc (by intro h; rw [topRed, hfc] at h; cases h)).1
      | true =>
        obtain ⟨rs, rr, rc'⟩ := rc
        obtain ⟨hfs, hne, htr⟩ := rr hfc
        cases fs with
        | nil => exact absurd rfl hne
        | cons g fs =>
          obtain ⟨rgs, _, rc''⟩ := rc'
          rw [if_pos hfc] at rgs
          rw [topRed] at htr
          rw [htr, if_neg (by simp), if_pos hfc] at rc''
          have hp := rep_parent H.focus.2 (n := n) rfl
          obtain ⟨hfi, rfs, hgi, rgs', rcc⟩ := H.focus.1
          have hroot := root_ne H (n := n) rfl
          have hpp : (s.h f.i).parent = some g.i := by rw [hfi, parent_mkNode]; rfl
          have hfr : ¬ ((s.h f.i).red = false) := by rw [hfi, red_mkNode, hfc]; simp
          have H0 : TRep s (plug (T.nd g.d g.i g.k false
              (T.nd f.d f.i f.k true (.node n kn true a b) f.s) g.s) fs) := by
            have := H
            rw [plug, plug, hfc, htr] at this; exact this
          have hgd : decide ((s.h g.i).ch true = some f.i) = g.d := by
            cases hg : g.d with
            | true => rw [hgi, hg, ch_mkNode]; simp
            | false =>
              have : (mkNode false g.k g.c (some f.i) g.s.root (par fs)).ch true = g.s.root :=
                ch_mkNode_not false g.k g.c (some f.i) g.s.root (par fs)
              rw [hgi, hg, this]
              refine decide_eq_false (fun h => ?_)
              have hnt := (nodup_plug.1 H0.nodup).1
              rw [nodup_nd] at hnt
              exact hnt.2.2.2.2 f.i (ids_nd.2 (Or.inl rfl)) (root_mem h)
          have hu : (s.h g.i).ch (!g.d) = g.s.root := by rw [hgi, ch_mkNode_not]
          have hred : s.isRed g.s.root = g.s.red := isRed_rep rgs'
          rw [fixLoop, if_neg hroot, hp]
          simp only [par]
          rw [if_neg hfr, hpp]
          simp only [hgd, hu, hred]
          cases hgr : g.s.red with
          | true =>
            simp only [if_true]
            cases hgs : g.s with
            | leaf => rw [hgs] at hgr; cases hgr
            | node ui uk uc ul ur =>
              have huc : uc = true := by rw [hgs] at hgr; exact hgr
              subst huc
              rw [hgs] at H0 rgs
              have rgs0 := rgs
              simp only [RB, Bool.true_eq_false, false_and, or_false, true_and] at rgs
              -- the three recolourings
              have H1 := setRed_rep (v := false) (fs := ⟨g.d, g.i, g.k, false, .node ui uk true ul ur⟩ :: fs) H0
              have H2 : TRep (s.setRed f.i false) (plug (T.nd true ui uk true ul ur)
                  (⟨!g.d, g.i, g.k, false, T.nd f.d f.i f.k false (.node n kn true a b) f.s⟩ :: fs)) := by
                rw [plug]; simp only [nd_not]; exact H1
              have H3 := setRed_rep (v := false) H2
              have H4 : TRep ((s.setRed f.i false).setRed ui false) (plug (T.nd g.d g.i g.k false
                  (T.nd f.d f.i f.k false (.node n kn true a b) f.s) (T.nd true ui uk false ul ur)) fs) := by
                rw [plug] at H3; simp only [nd_not] at H3; exact H3
              have H5 := setRed_rep (v := true) H4
              have rp : RB (T.nd f.d f.i f.k false (.node n kn true a b) f.s) (k + 1) :=
                rb_nd.2 (Or.inr ⟨rfl, k, rfl, rt, rs⟩)
              have ru : RB (T.nd true ui uk false ul ur) (k + 1) :=
                rb_nd.2 (Or.inr ⟨rfl, k, rfl, rgs.2.2.1, rgs.2.2.2⟩)
              have hlen : fs.length < fuel := by simp at hl; omega
              have hio : (plug (T.nd g.d g.i g.k true (T.nd f.d f.i f.k false (.node n kn true a b) f.s)
                    (T.nd true ui uk false ul ur)) fs).io =
                  (plug (.node n kn true a b) (f :: g :: fs)).io := by
                rw [plug, plug, io_plug, io_plug, hgs]
                cases g.d <;> cases f.d <;> simp [T.nd, T.io]
              rw [← hio]
              simp only [T.root]
              cases hgd' : g.d with
              | true =>
                rw [hgd'] at H5
                exact ih fs _ g.i g.k _ _ (k + 1) H5 (by simp) (by simp) rp ru rc'' hlen
              | false =>
                rw [hgd'] at H5
                exact ih fs _ g.i g.k _ _ (k + 1) H5 (by simp) (by simp) ru rp rc'' hlen
          | false =>
            simp only [Bool.false_eq_true, if_false]
            obtain ⟨s', n', q, kq, x, y, e1, e2, e3, e4, e5, e6⟩ := fixRotate_rep f.d H0
            obtain ⟨r1, r2, r3⟩ := e5 k ha hb hfs ra rb rs
            obtain ⟨fuel', rfl⟩ : ∃ m, fuel = m + 1 := ⟨fuel - 1, by simp at hl; omega⟩
            rw [e1]
            refine ⟨s', _, fixLoop_exit e4 e3 rfl, e4, e2, ?_, ?_⟩
            · rw [e6, plug, plug, hfc, htr]
            · rw [plug]
              refine (plug_rb (n := k + 1) ?_ rc'' ?_).1
              · exact rb_nd.2 (Or.inr ⟨rfl, k, rfl, r1, rb_nd.2 (Or.inl ⟨rfl, r3, hgr, r2, rgs⟩)⟩)
              · intro _; rw [red_nd]

/-- `RBTreeFixup_` of a new leaf. -/
theorem fixup_spec {s : Tree} {n : Nat} {kn : Key} {fs : List Frame}
    (H : TRep s (plug (.node n kn true .leaf .leaf) fs)) (rc : RBC fs 0)
    (hl : fs.length ≤ s.next) :
    ∃ s' t', fixup s n = some s' ∧ TRep s' t' ∧ s'.next = s.next ∧
      t'.io = (plug (.node n kn true .leaf .leaf) fs).io ∧ (∃ k', RB t' k') ∧ t'.red = false := by
  have H0 : TRep (s.setRed n true) (plug (.node n kn true .leaf .leaf) fs) :=
    setRed_rep (d := true) H
  obtain ⟨s1, t1, e1, e2, e3, e4, k', e5⟩ := fixLoop_spec (s.next + 1) fs _ n kn .leaf .leaf 0 H0 rfl rfl
    rfl rfl rc (by omega)
  rw [fixup, e1]
  cases t1 with
  | leaf =>
    exfalso
    rw [io_plug] at e4
    simp [T.io] at e4
  | node r kr c l rr =>
    have hr : s1.root = some r := e2.root
    simp only [hr]
    have H2 : TRep (s1.setRed r false) (T.node r kr false l rr) :=
      setRed_rep (d := true) (fs := []) (v := false) e2
    refine ⟨_, _, rfl, H2, e3, ?_, ?_, rfl⟩
    · rw [← e4]; rfl
    · rcases e5 with ⟨_, h1, h2, h3, h4⟩ | ⟨_, m, h1, h2, h3⟩
      · exact ⟨k' + 1, Or.inr ⟨rfl, k', rfl, h3, h4⟩⟩
      · exact ⟨k', Or.inr ⟨rfl, m, h1, h2, h3⟩⟩

end Sparta.MemoryMap
