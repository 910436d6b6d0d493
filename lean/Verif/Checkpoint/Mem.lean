import Verif.Checkpoint.Spec
import Verif.ArchData.Lemmas2
/-! Storing and restoring memories. -/
namespace Sparta.Checkpoint
open Sparta.ArchData

/-- pointwise relation of two lists -/
def All2 {α β : Type _} (P : α → β → Prop) : List α → List β → Prop
  | [], [] => True
  | a :: as, b :: bs => P a b ∧ All2 P as bs
  | _, _ => False

theorem All2.length {α β : Type _} {P : α → β → Prop} : ∀ {as : List α} {bs : List β}, All2 P as bs → as.length = bs.length
  | [], [], _ => rfl
  | _ :: _, _ :: _, h => congrArg (· + 1) (All2.length h.2)

theorem All2.mono {α β : Type _} {P Q : α → β → Prop} (h : ∀ a b, P a b → Q a b) :
    ∀ {as : List α} {bs : List β}, All2 P as bs → All2 Q as bs
  | [], [], _ => trivial
  | _ :: _, _ :: _, g => ⟨h _ _ g.1, All2.mono h g.2⟩

theorem All2.get {α β : Type _} {P : α → β → Prop} : ∀ {as : List α} {bs : List β}, All2 P as bs →
    ∀ {k : Nat} {a : α}, as[k]? = some a → ∃ b, bs[k]? = some b ∧ P a b
  | _ :: _, b :: _, h, 0, _, e => by cases e; exact ⟨b, rfl, h.1⟩
  | _ :: _, _ :: _, h, k + 1, a, e => All2.get h.2 (k := k) (by simpa using e)

theorem All2.set {α β : Type _} {P : α → β → Prop} : ∀ {as : List α} {bs : List β}, All2 P as bs →
    ∀ (k : Nat) {a : α} {b : β}, P a b → All2 P (as.set k a) (bs.set k b)
  | [], [], _, _, _, _, _ => trivial
  | _ :: _, _ :: _, h, 0, _, _, p => ⟨p, h.2⟩
  | _ :: _, _ :: _, h, k + 1, _, _, p => ⟨h.1, All2.set h.2 k p⟩

theorem All2.set_left {α β : Type _} {P : α → β → Prop} : ∀ {as : List α} {bs : List β}, All2 P as bs →
    ∀ (k : Nat) {a : α}, (∀ b, bs[k]? = some b → P a b) → All2 P (as.set k a) bs
  | [], [], _, _, _, _ => trivial
  | _ :: _, b :: _, h, 0, _, p => ⟨p b rfl, h.2⟩
  | _ :: _, _ :: _, h, k + 1, _, p => ⟨h.1, All2.set_left h.2 k (fun b hb => p b (by simpa using hb))⟩

theorem All2.set_right {α β : Type _} {P : α → β → Prop} : ∀ {as : List α} {bs : List β}, All2 P as bs →
    ∀ (k : Nat) {b : β}, (∀ a, as[k]? = some a → P a b) → All2 P as (bs.set k b)
  | [], [], _, _, _, _ => trivial
  | a :: _, _ :: _, h, 0, _, p => ⟨p a rfl, h.2⟩
  | _ :: _, _ :: _, h, k + 1, _, p => ⟨h.1, All2.set_right h.2 k (fun b hb => p b (by simpa using hb))⟩

theorem All2.none {α β : Type _} {P : α → β → Prop} {as : List α} {bs : List β} (h : All2 P as bs) {k : Nat}
    (e : as[k]? = none) : bs[k]? = none := by
  rw [List.getElem?_eq_none_iff] at e ⊢
  rw [← h.length]; exact e

theorem All2.trans {α : Type _} {P : α → α → Prop} : ∀ {as bs cs : List α}, All2 P as bs →
    (∀ a b c, P a b → P b c → P a c) → All2 P bs cs → All2 P as cs
  | [], [], [], _, _, _ => trivial
  | _ :: _, _ :: _, _ :: _, h, t, g => ⟨t _ _ _ h.1 g.1, All2.trans h.2 t g.2⟩

/-- static parameters of an ArchData -/
structure Cfg where
  lsb : Nat
  fill : Nat
  fsz : Nat
  size : Nat

def Cfg.L (f : Cfg) : Nat := 2 ^ f.lsb

def Cfg.blank (f : Cfg) (x : Nat) : UInt8 := byteOf f.fill ((x % f.L) % f.fsz)

def Of (f : Cfg) (m : AD) : Prop := f.lsb = m.lsb ∧ f.fill = m.fill ∧ f.fsz = m.fsz ∧ f.size = m.size

theorem Of.L {f : Cfg} {m : AD} (h : Of f m) : f.L = m.lineSize := by unfold Cfg.L AD.lineSize; rw [h.1]

theorem Of.trans {f : Cfg} {m q : AD} (h : Of f m) (c : m.sameCfg q) : Of f q := by
  obtain ⟨c1, c2, c3, c4, c5, c6⟩ := c
  exact ⟨h.1.trans c1.symm, h.2.1.trans c2.symm, h.2.2.1.trans c3.symm, h.2.2.2.trans c5.symm⟩

/-- the effect of restoring lines on the bytes -/
def applyRecs (L : Nat) : List (Nat × Data) → (Nat → UInt8) → (Nat → UInt8)
  | [], f => f
  | (i, d) :: r, f => applyRecs L r (fun x => if x / L = i then d (x % L) else f x)

theorem applyRecs_other (L : Nat) : ∀ (r : List (Nat × Data)) (f : Nat → UInt8) (x : Nat), x / L ∉ r.map (·.1) →
    applyRecs L r f x = f x := by
  intro r
  induction r with
  | nil => intro f x _; rfl
  | cons p r ih =>
    intro f x hx
    obtain ⟨i, d⟩ := p
    rw [List.map_cons, List.mem_cons] at hx
    unfold applyRecs
    rw [ih _ _ (fun h => hx (Or.inr h)), if_neg (fun h => hx (Or.inl h))]

theorem applyRecs_lookup (L : Nat) : ∀ (r : List (Nat × Data)) (f : Nat → UInt8) (x : Nat) (d : Data),
    (r.map (·.1)).Nodup → (x / L, d) ∈ r → applyRecs L r f x = d (x % L) := by
  intro r
  induction r with
  | nil => intro f x d _ h; cases h
  | cons p r ih =>
    intro f x d hn h
    obtain ⟨i, e⟩ := p
    rw [List.map_cons, List.nodup_cons] at hn
    unfold applyRecs
    rcases List.mem_cons.1 h with h | h
    · cases h
      rw [applyRecs_other _ _ _ _ hn.1, if_pos rfl]
    · exact ih _ _ _ hn.2 h

theorem modify_byteAt {m : AD} {i : Nat} {l : Line} (h : m.find i = some l) (d : Data) (b : Bool) (x : Nat) :
    (m.modify i fun _ => ⟨d, b⟩).byteAt x = if x / m.lineSize = i then d (x % m.lineSize) else m.byteAt x := by
  unfold AD.byteAt
  rw [show (m.modify i fun _ => ⟨d, b⟩).lineSize = m.lineSize from rfl, find_modify]
  by_cases e : x / m.lineSize = i
  · rw [if_pos e, if_pos e, e, h]; rfl
  · rw [if_neg e, if_neg e]; rfl

theorem restore_spec : ∀ (recs : List (Nat × Data)) (m : AD) (rest : Stream), WF m → (∀ p ∈ recs, p.1 * m.lineSize < m.size) →
    ∃ q, restore m (recs.map some ++ none :: rest) = some (q, rest) ∧ WF q ∧ m.sameCfg q ∧
      ∀ x, q.byteAt x = applyRecs m.lineSize recs m.byteAt x := by
  intro recs
  induction recs with
  | nil => intro m rest w _; exact ⟨m, rfl, w, AD.sameCfg.refl m, fun _ => rfl⟩
  | cons p recs ih =>
    intro m rest w h
    obtain ⟨i, d⟩ := p
    have hi := h _ (List.mem_cons_self ..)
    dsimp only at hi
    have hw : wrap (i * m.lineSize) = i * m.lineSize := wrap_le (by have := w.size; omega)
    obtain ⟨q, l, h1, cfg, h3, h4, _⟩ := getLine_spec m w.fill _ hi
    rw [Nat.mul_div_cancel _ (lineSize_pos m)] at h3
    have wq := getLine_wf w hi h1
    have hls : q.lineSize = m.lineSize := cfg.lineSize
    obtain ⟨r, g1, g2, g3, g4⟩ := ih (q.modify i fun _ => ⟨d, false⟩) rest (modify_wf wq i _)
      (by
        intro p hp
        show p.1 * q.lineSize < q.size
        rw [hls, cfg.2.2.2.2.1]
        exact h p (List.mem_cons_of_mem _ hp))
    refine ⟨r, ?_, g2, cfg.trans (AD.sameCfg.trans ⟨rfl, rfl, rfl, rfl, rfl, rfl⟩ g3), ?_⟩
    · show restore m (some (i, d) :: (recs.map some ++ none :: rest)) = _
      unfold restore
      rw [hw, h1]
      exact g1
    · intro x
      rw [g4, show (q.modify i fun _ => ⟨d, false⟩).lineSize = q.lineSize from rfl, hls]
      show _ = applyRecs m.lineSize recs (fun x => if x / m.lineSize = i then d (x % m.lineSize) else m.byteAt x) x
      congr 1
      funext y
      rw [modify_byteAt h3, hls, h4]

/-- selected lines of a memory -/
def recsOf (sel : Line → Bool) (m : AD) : List (Nat × Data) :=
  (m.lines.filter fun p => sel p.2).map fun p => (p.1, p.2.data)

theorem mem_of_lookup {α : Type _} : ∀ (l : List (Nat × α)) (i : Nat) (v : α), l.lookup i = some v → (i, v) ∈ l := by
  intro l
  induction l with
  | nil => intro i v h; cases h
  | cons p l ih =>
    intro i v h
    obtain ⟨k, w⟩ := p
    rw [List.lookup_cons] at h
    by_cases e : i = k
    · subst e
      simp at h
      subst h
      exact List.mem_cons_self ..
    · have : (i == k) = false := by simpa using e
      rw [this] at h
      exact List.mem_cons_of_mem _ (ih i v h)

theorem lookup_of_mem {α : Type _} : ∀ (l : List (Nat × α)) (i : Nat) (v : α), (l.map (·.1)).Nodup → (i, v) ∈ l →
    l.lookup i = some v := by
  intro l
  induction l with
  | nil => intro i v _ h; cases h
  | cons p l ih =>
    intro i v hn h
    obtain ⟨k, w⟩ := p
    rw [List.map_cons, List.nodup_cons] at hn
    rw [List.lookup_cons]
    rcases List.mem_cons.1 h with h1 | h1
    · cases h1; simp
    · by_cases e : i = k
      · subst e
        have hm : i ∈ l.map (·.1) := List.mem_map.2 ⟨(i, v), h1, rfl⟩
        exact absurd hm hn.1
      · have : (i == k) = false := by simpa using e
        rw [this]
        exact ih i v hn.2 h1

theorem recsOf_nodup (sel : Line → Bool) {m : AD} (w : WF m) : ((recsOf sel m).map (·.1)).Nodup := by
  have e : (recsOf sel m).map (·.1) = (m.lines.filter fun p => sel p.2).map (·.1) := by
    unfold recsOf; rw [List.map_map]; rfl
  rw [e]
  exact List.Sublist.nodup (List.Sublist.map _ List.filter_sublist) w.nodup

theorem recsOf_inside (sel : Line → Bool) {m : AD} (w : WF m) : ∀ p ∈ recsOf sel m, p.1 * m.lineSize < m.size := by
  intro p hp
  obtain ⟨a, ha, e⟩ := List.mem_map.1 hp
  subst e
  obtain ⟨i, l⟩ := a
  have := lookup_of_mem _ _ _ w.nodup (List.mem_filter.1 ha).1
  exact w.inside i (by unfold AD.find; rw [this]; intro h; cases h)

/-- storing the selected lines over a memory that agrees on all others gives the whole memory -/
theorem recsOf_apply (sel : Line → Bool) {m : AD} (w : WF m) (g : Nat → UInt8)
    (h : ∀ x, (∀ l, m.find (x / m.lineSize) = some l → sel l = false) → m.byteAt x = g x) :
    applyRecs m.lineSize (recsOf sel m) g = m.byteAt := by
  funext x
  by_cases hc : ∃ l, m.find (x / m.lineSize) = some l ∧ sel l = true
  · obtain ⟨l, hl, hs⟩ := hc
    have hm : (x / m.lineSize, l.data) ∈ recsOf sel m :=
      List.mem_map.2 ⟨(x / m.lineSize, l), List.mem_filter.2 ⟨mem_of_lookup _ _ _ hl, hs⟩, rfl⟩
    rw [applyRecs_lookup _ _ _ _ _ (recsOf_nodup sel w) hm]
    unfold AD.byteAt
    rw [hl]
  · have hno : ∀ l, m.find (x / m.lineSize) = some l → sel l = false := by
      intro l hl
      cases hs : sel l with
      | false => rfl
      | true => exact absurd ⟨l, hl, hs⟩ hc
    rw [applyRecs_other, h x hno]
    intro hmem
    obtain ⟨p, hp, e⟩ := List.mem_map.1 hmem
    obtain ⟨a, ha, e2⟩ := List.mem_map.1 hp
    obtain ⟨i, l⟩ := a
    subst e2
    dsimp only at e
    subst e
    obtain ⟨h1, h2⟩ := List.mem_filter.1 ha
    have := hno l (lookup_of_mem _ _ _ w.nodup h1)
    dsimp only at h2
    rw [this] at h2
    cases h2

theorem undirty_spec {m : AD} (w : WF m) : WF (undirty m) ∧ m.sameCfg (undirty m) ∧ (∀ x, (undirty m).byteAt x = m.byteAt x) := by
  have hfind : ∀ i, (undirty m).find i = (m.find i).map fun l => (⟨l.data, false⟩ : Line) :=
    fun i => lookup_map_all m.lines i (fun l => ⟨l.data, false⟩)
  refine ⟨⟨w.fill, w.lsb, w.size, ?_, ?_⟩, ⟨rfl, rfl, rfl, rfl, rfl, rfl⟩, ?_⟩
  · have : (undirty m).lines.map (·.1) = m.lines.map (·.1) := by unfold undirty; rw [List.map_map]; rfl
    rw [this]; exact w.nodup
  · intro i hi
    apply w.inside i
    intro hn
    rw [hfind, hn] at hi
    exact hi rfl
  · intro x
    unfold AD.byteAt
    rw [hfind, show (undirty m).lineSize = m.lineSize from rfl]
    cases m.find (x / m.lineSize) <;> rfl

/-! ### lists of memories -/

def flat : List (List (Nat × Data)) → Stream
  | [] => []
  | r :: rs => r.map some ++ none :: flat rs

def Good (f : Cfg) (m : AD) : Prop := WF m ∧ Of f m

/-- stored lines lie inside the memories -/
def RecsIn (f : Cfg) (r : List (Nat × Data)) : Prop := ∀ p ∈ r, p.1 * f.L < f.size

def applyAll : List Cfg → List (List (Nat × Data)) → List (Nat → UInt8) → List (Nat → UInt8)
  | f :: fs, r :: rs, m :: ms => applyRecs f.L r m :: applyAll fs rs ms
  | _, _, _ => []

theorem loadState_spec (snap : Bool) : ∀ (cf : List Cfg) (ads : List AD) (recss : List (List (Nat × Data))),
    All2 Good cf ads → All2 RecsIn cf recss →
    ∃ ads', loadState snap ads (flat recss) = some ads' ∧ All2 Good cf ads' ∧ All2 AD.sameCfg ads ads' ∧
      ads'.map AD.byteAt = applyAll cf recss (if snap then cf.map Cfg.blank else ads.map AD.byteAt) := by
  intro cf
  induction cf with
  | nil =>
    intro ads recss h1 h2
    cases ads with
    | nil => refine ⟨[], rfl, trivial, trivial, ?_⟩; cases snap <;> rfl
    | cons => exact h1.elim
  | cons f cf ih =>
    intro ads recss h1 h2
    cases ads with
    | nil => exact h1.elim
    | cons m ads =>
      cases recss with
      | nil => exact h2.elim
      | cons r recss =>
        obtain ⟨⟨w, o⟩, h1⟩ := h1
        obtain ⟨hr, h2⟩ := h2
        obtain ⟨ads', a1, a2, a3, a4⟩ := ih ads recss h1 h2
        have hL : f.L = m.lineSize := o.L
        cases snap with
        | false =>
          obtain ⟨q, b1, b2, b3, b4⟩ := restore_spec r m (flat recss) w
            (fun p hp => by rw [← hL, ← o.2.2.2]; exact hr p hp)
          refine ⟨q :: ads', ?_, ⟨⟨b2, o.trans b3⟩, a2⟩, ⟨b3, a3⟩, ?_⟩
          · show loadState false (m :: ads) (r.map some ++ none :: flat recss) = _
            unfold loadState
            simp only [Bool.false_eq_true, if_false, b1, a1, Option.map_some]
          · simp only [Bool.false_eq_true, if_false] at a4 ⊢
            rw [List.map_cons, a4, List.map_cons]
            show _ = applyRecs f.L r m.byteAt :: _
            congr 1
            funext x
            rw [b4, hL]
        | true =>
          obtain ⟨cw, cc, cb⟩ := clean_spec w
          have hls : m.clean.lineSize = m.lineSize := cc.lineSize
          obtain ⟨q, b1, b2, b3, b4⟩ := restore_spec r m.clean (flat recss) cw
            (fun p hp => by rw [hls, cc.2.2.2.2.1, ← hL, ← o.2.2.2]; exact hr p hp)
          have b3' := cc.trans b3
          refine ⟨q :: ads', ?_, ⟨⟨b2, o.trans b3'⟩, a2⟩, ⟨b3', a3⟩, ?_⟩
          · show loadState true (m :: ads) (r.map some ++ none :: flat recss) = _
            unfold loadState restoreAll
            simp only [if_true, b1, a1, Option.map_some]
          · simp only [if_true] at a4 ⊢
            rw [List.map_cons, a4, List.map_cons]
            show _ = applyRecs f.L r f.blank :: _
            congr 1
            funext x
            rw [b4, hls, ← hL]
            congr 1
            funext y
            rw [cb]
            unfold Cfg.blank
            rw [hL, o.2.1, o.2.2.1]

/-- lines that a delta does not store agree with `g` -/
def CleanAt (m : AD) (g : Nat → UInt8) : Prop :=
  ∀ x, (∀ l, m.find (x / m.lineSize) = some l → l.dirty = false) → m.byteAt x = g x

theorem store_spec (snap : Bool) : ∀ (cf : List Cfg) (ads : List AD) (base : List (Nat → UInt8)),
    All2 Good cf ads → (snap = false → All2 CleanAt ads base) →
    ∃ recss, (store snap ads).2 = flat recss ∧ All2 RecsIn cf recss ∧
      All2 Good cf (store snap ads).1 ∧ All2 AD.sameCfg ads (store snap ads).1 ∧
      (store snap ads).1.map AD.byteAt = ads.map AD.byteAt ∧
      ads.map AD.byteAt = applyAll cf recss (if snap then cf.map Cfg.blank else base) := by
  intro cf
  induction cf with
  | nil =>
    intro ads base h1 h2
    cases ads with
    | nil => refine ⟨[], rfl, trivial, trivial, trivial, rfl, ?_⟩; cases snap <;> rfl
    | cons => exact h1.elim
  | cons f cf ih =>
    intro ads base h1 h2
    cases ads with
    | nil => exact h1.elim
    | cons m ads =>
      obtain ⟨⟨w, o⟩, h1⟩ := h1
      have hL : f.L = m.lineSize := o.L
      obtain ⟨u1, u2, u3⟩ := undirty_spec w
      have uf : (undirty m).byteAt = m.byteAt := funext u3
      cases snap with
      | false =>
        have h2 := h2 rfl
        cases base with
        | nil => exact h2.elim
        | cons g base =>
          obtain ⟨recss, a1, a2, a3, a4, a5, a6⟩ := ih ads base h1 (fun _ => h2.2)
          refine ⟨recsOf (·.dirty) m :: recss, ?_, ⟨?_, a2⟩, ⟨⟨u1, o.trans u2⟩, a3⟩, ⟨u2, a4⟩, ?_, ?_⟩
          · show (save m).2 ++ (store false ads).2 = _
            rw [a1]
            show _ = (recsOf (·.dirty) m).map some ++ none :: flat recss
            unfold save recsOf
            rw [List.map_map, List.append_assoc]
            rfl
          · intro p hp
            rw [hL, o.2.2.2]
            exact recsOf_inside _ w p hp
          · show (undirty m).byteAt :: _ = m.byteAt :: _
            rw [uf, a5]
          · simp only [Bool.false_eq_true, if_false] at a6 ⊢
            show m.byteAt :: ads.map AD.byteAt = applyRecs f.L _ g :: _
            rw [a6, hL, recsOf_apply (·.dirty) w g h2.1]
      | true =>
        obtain ⟨recss, a1, a2, a3, a4, a5, a6⟩ := ih ads [] h1 (fun h => by cases h)
        refine ⟨recsOf (fun _ => true) m :: recss, ?_, ⟨?_, a2⟩, ⟨⟨u1, o.trans u2⟩, a3⟩, ⟨u2, a4⟩, ?_, ?_⟩
        · show (saveAll m).2 ++ (store true ads).2 = _
          rw [a1]
          show _ = (recsOf (fun _ => true) m).map some ++ none :: flat recss
          unfold saveAll recsOf
          rw [List.map_map, List.append_assoc, List.filter_eq_self.2 (fun _ _ => rfl)]
          rfl
        · intro p hp
          rw [hL, o.2.2.2]
          exact recsOf_inside _ w p hp
        · show (undirty m).byteAt :: _ = m.byteAt :: _
          rw [uf, a5]
        · simp only [if_true] at a6 ⊢
          show m.byteAt :: ads.map AD.byteAt = applyRecs f.L _ f.blank :: _
          rw [a6, hL, recsOf_apply (fun _ => true) w f.blank]
          intro x hx
          unfold AD.byteAt
          rcases Option.eq_none_or_eq_some (m.find (x / m.lineSize)) with hn | ⟨l, hl⟩
          · rw [hn]
            unfold Cfg.blank
            rw [hL, o.2.1, o.2.2.1]
          · cases hx l hl

end Sparta.Checkpoint
