import Verif.PFile.Lemmas
/-! Every call keeps the memories well formed and their parameters. -/
namespace Sparta.PFile
open Sparta.ArchData Sparta.Checkpoint

/-- a later state of a memory -/
def Later (m q : AD) : Prop := WF q ∧ m.sameCfg q

theorem Later.refl {m : AD} (w : WF m) : Later m m := ⟨w, AD.sameCfg.refl m⟩

theorem Later.trans {a b c : AD} (h : Later a b) (g : Later b c) : Later a c := ⟨g.1, h.2.trans g.2⟩

/-- well formed, with initial values of a representable size -/
def Fine (m : AD) : Prop := WF m ∧ ∀ p ∈ m.inits, p.2.length < 2 ^ 63

theorem Later.fine {m q : AD} (h : Later m q) (f : Fine m) : Fine q := ⟨h.1, by rw [h.2.2.2.2.2.2]; exact f.2⟩

theorem later_getLine {m q : AD} (w : WF m) {a : Nat} (h : m.getLine a = some q) : Later m q := by
  by_cases ha : a < m.size
  · obtain ⟨q', l, h1, cfg, _⟩ := getLine_spec m w.fill a ha
    rw [h] at h1
    cases h1
    exact ⟨getLine_wf w ha h, cfg⟩
  · unfold AD.getLine at h
    rw [if_neg ha] at h
    cases h

theorem later_modify {m q : AD} (h : Later m q) (i : Nat) (f : Line → Line) : Later m (q.modify i f) :=
  ⟨modify_wf h.1 i f, h.2.trans ⟨rfl, rfl, rfl, rfl, rfl, rfl⟩⟩

theorem later_clean {m : AD} (w : WF m) : Later m m.clean := ⟨(clean_spec w).1, (clean_spec w).2.1⟩

theorem later_write {m : AD} (w : WF m) (a : Nat) (bs : List UInt8) (hb : bs.length < 2 ^ 63) : Later m (m.write a bs).1 :=
  ⟨(write_spec w a bs hb).1, (write_spec w a bs hb).2.1⟩

theorem later_inits : ∀ (l : List (Nat × List UInt8)) (m : AD), WF m → (∀ p ∈ l, p.2.length < 2 ^ 63) → Later m (m.writeInits l)
  | [], _, w, _ => Later.refl w
  | (a, bs) :: l, m, w, h => by
    have h1 := later_write w a bs (h _ (List.mem_cons_self ..))
    exact h1.trans (later_inits l _ h1.1 (fun p hp => h p (List.mem_cons_of_mem _ hp)))

/-- buffers have fewer than 2^63 bytes -/
def small : ArchData.Op → Prop
  | .write _ bs => bs.length < 2 ^ 63
  | _ => True

theorem later_access {m : AD} (f : Fine m) (o : ArchData.Op) (h : small o) : Later m (m.step o).1 := by
  cases o with
  | read a n =>
    unfold AD.step AD.read
    dsimp only
    rcases Option.eq_none_or_eq_some (m.getLine a) with e | ⟨q, e⟩
    · rw [e]; exact Later.refl f.1
    · rw [e, Option.bind_some]
      dsimp only
      have hq := later_getLine f.1 e
      rcases Option.eq_none_or_eq_some (q.find (q.lineIdx a)) with e2 | ⟨l, e2⟩
      · rw [e2]; exact hq
      · rw [e2, Option.bind_some]
        cases l.read q.lineSize (a % q.lineSize) n <;> exact hq
  | peek a n => exact Later.refl f.1
  | write a bs => exact later_write f.1 a bs h
  | clean => exact later_clean f.1
  | reset =>
    have h1 := later_clean f.1
    exact h1.trans (later_inits _ _ h1.1 f.2)

theorem later_restore : ∀ (s : Stream) (m q : AD) (r : Stream), WF m → restore m s = some (q, r) → Later m q
  | [], _, _, _, _, h => by cases h
  | none :: rest, m, q, r, w, h => by cases h; exact Later.refl w
  | some (i, d) :: rest, m, q, r, w, h => by
    unfold restore at h
    rcases Option.eq_none_or_eq_some (m.getLine (wrap (i * m.lineSize))) with e | ⟨q', e⟩
    · rw [e] at h; cases h
    · rw [e] at h
      have h1 := later_modify (later_getLine w e) i fun _ => ⟨d, false⟩
      exact h1.trans (later_restore rest _ q r h1.1 h)

theorem later_restoreLoop : ∀ (fuel : Nat) (m : AD) (s : In), WF m → Later m (restoreLoop fuel m s).1
  | 0, _, _, w => Later.refl w
  | fuel + 1, m, s, w => by
    unfold restoreLoop
    generalize s.nextLine = z
    obtain ⟨t, o⟩ := z
    cases o with
    | none => exact Later.refl w
    | some i =>
      dsimp only
      by_cases hi : i = invalid
      · rw [if_pos hi]; exact Later.refl w
      · rw [if_neg hi]
        rcases Option.eq_none_or_eq_some (m.getLine (wrap (i * m.lineSize))) with e | ⟨q, e⟩
        · rw [e]; exact Later.refl w
        · rw [e]
          dsimp only
          have h1 := later_modify (later_getLine w e) (q.lineIdx (wrap (i * m.lineSize)))
            (fun l => ⟨overwrite l.data 0 (t.read q.lineSize).2, false⟩)
          exact h1.trans (later_restoreLoop fuel _ _ h1.1)

theorem later_restoreAD (m : AD) (s : In) (w : WF m) : Later m (restoreAD m s).1 := by
  unfold restoreAD
  have h1 := later_clean w
  split
  · exact h1.trans (later_restoreLoop _ _ _ h1.1)
  · exact h1

/-! ### all memories -/

theorem all_refl : ∀ {ms : List AD}, (∀ m ∈ ms, Fine m) → All2 Later ms ms
  | [], _ => trivial
  | m :: _, h => ⟨Later.refl (h m (List.mem_cons_self ..)).1, all_refl fun m hm => h m (List.mem_cons_of_mem _ hm)⟩

theorem all_trans {a b c : List AD} (h : All2 Later a b) (g : All2 Later b c) : All2 Later a c :=
  All2.trans h (fun _ _ _ => Later.trans) g

theorem all_fine : ∀ {ms qs : List AD}, All2 Later ms qs → (∀ m ∈ ms, Fine m) → ∀ q ∈ qs, Fine q
  | [], [], _, _, _, hq => nomatch hq
  | m :: ms, q :: qs, h, f, x, hx => by
    rcases List.mem_cons.1 hx with e | hx
    · subst e; exact h.1.fine (f m (List.mem_cons_self ..))
    · exact all_fine h.2 (fun m hm => f m (List.mem_cons_of_mem _ hm)) x hx

theorem all_undirty : ∀ {ms : List AD}, (∀ m ∈ ms, Fine m) → All2 Later ms (ms.map undirty)
  | [], _ => trivial
  | m :: _, h =>
    have u := undirty_spec (h m (List.mem_cons_self ..)).1
    ⟨⟨u.1, u.2.1⟩, all_undirty fun m hm => h m (List.mem_cons_of_mem _ hm)⟩

theorem store_map (snap : Bool) : ∀ (ms : List AD), (store snap ms).1 = ms.map undirty
  | [] => rfl
  | m :: ms => by
    unfold store
    dsimp only
    rw [store_map snap ms, List.map_cons]
    cases snap <;> rfl

theorem all_loadState (snap : Bool) : ∀ (ms qs : List AD) (s : Stream), (∀ m ∈ ms, Fine m) → loadState snap ms s = some qs →
    All2 Later ms qs
  | [], qs, s, _, h => by cases h; trivial
  | m :: ms, qs, s, f, h => by
    unfold loadState at h
    have fm := (f m (List.mem_cons_self ..)).1
    have key : ∀ q r, (if snap then Checkpoint.restoreAll m s else restore m s) = some (q, r) → Later m q := by
      intro q r e
      cases snap with
      | true => exact (later_clean fm).trans (later_restore s m.clean q r (later_clean fm).1 e)
      | false => exact later_restore s m q r fm e
    rcases Option.eq_none_or_eq_some (if snap then Checkpoint.restoreAll m s else restore m s) with e | ⟨⟨q, r⟩, e⟩
    · rw [e] at h; cases h
    · rw [e] at h
      dsimp only at h
      obtain ⟨qs', e1, e2⟩ := Option.map_eq_some_iff.1 h
      subst e2
      exact ⟨key q r e, all_loadState snap ms qs' r (fun m hm => f m (List.mem_cons_of_mem _ hm)) e1⟩

theorem all_loadNodes : ∀ (ns : List Node) (ms qs : List AD), (∀ m ∈ ms, Fine m) → loadNodes ns ms = some qs → All2 Later ms qs
  | [], ms, qs, f, h => by cases h; exact all_refl f
  | n :: ns, ms, qs, f, h => by
    unfold loadNodes at h
    obtain ⟨q, e1, e2⟩ := Option.bind_eq_some_iff.1 h
    have h1 := all_loadState n.snap ms q n.data f e1
    exact all_trans h1 (all_loadNodes ns q qs (all_fine h1 f) e2)

theorem all_load {chk : Map} {id : Nat} {ms qs : List AD} (f : ∀ m ∈ ms, Fine m) (h : Checkpoint.load chk id ms = some qs) :
    All2 Later ms qs := by
  unfold Checkpoint.load at h
  obtain ⟨ns, _, e⟩ := Option.bind_eq_some_iff.1 h
  exact all_loadNodes _ _ _ f e

theorem all_restoreAll : ∀ (ms : List AD) (s : In), (∀ m ∈ ms, Fine m) → All2 Later ms (restoreAll ms s).1
  | [], _, _ => trivial
  | m :: ms, s, f => by
    have h1 := later_restoreAD m s (f m (List.mem_cons_self ..)).1
    have fs : ∀ m ∈ ms, Fine m := fun m hm => f m (List.mem_cons_of_mem _ hm)
    unfold restoreAll
    generalize restoreAD m s = z at h1
    obtain ⟨q, t, b⟩ := z
    cases b with
    | false => exact ⟨h1, all_refl fs⟩
    | true => exact ⟨h1, all_restoreAll ms t fs⟩

theorem all_set : ∀ {ms : List AD} (k : Nat) {m q : AD}, (∀ m ∈ ms, Fine m) → ms[k]? = some m → Later m q → All2 Later ms (ms.set k q)
  | [], _, _, _, _, h, _ => by cases h
  | m :: ms, 0, _, _, f, h, g => by
    cases h
    exact ⟨g, all_refl fun m hm => f m (List.mem_cons_of_mem _ hm)⟩
  | m :: ms, k + 1, _, _, f, h, g =>
    ⟨Later.refl (f m (List.mem_cons_self ..)).1, all_set k (fun m hm => f m (List.mem_cons_of_mem _ hm)) (by simpa using h) g⟩

/-! ### the calls -/

theorem newNode_ads {c c' : CP} {p : Option Nat} {snap : Bool} (h : c.newNode p snap = some c') : c'.ads = c.ads.map undirty := by
  rw [← store_map snap]
  unfold CP.newNode at h
  dsimp only at h
  split at h
  · split at h
    · cases h; rfl
    · cases h
  · split at h
    · cases h
    · split at h
      · cases h
      · cases h; rfl

theorem create__ads (c : CP) (force : Bool) :
    (c.create_ force).1.ads = c.ads ∨ (c.create_ force).1.ads = c.ads.map undirty := by
  have mk : ∀ (prev : Nat) (snap : Bool), ∀ z : CP × Checkpoint.Res,
      z = (match c.newNode (some prev) snap with
          | none => (c, Checkpoint.Res.threw)
          | some c' =>
            if snap then
              match cleanup c'.cur c'.head c'.next c'.chk c'.dead c.next with
              | none => (c', Checkpoint.Res.died)
              | some (chk, dead) => ({ c' with chk := chk, dead := dead }, Checkpoint.Res.created c.next snap)
            else (c', Checkpoint.Res.created c.next snap)) → z.1.ads = c.ads ∨ z.1.ads = c.ads.map undirty := by
    intro prev snap z hz
    subst hz
    rcases Option.eq_none_or_eq_some (c.newNode (some prev) snap) with e | ⟨c', e⟩
    · rw [e]; exact Or.inl rfl
    · rw [e]
      have := newNode_ads e
      dsimp only
      split
      · split
        · exact Or.inr this
        · exact Or.inr this
      · exact Or.inr this
  unfold CP.create_
  dsimp only
  split
  · exact Or.inl rfl
  · split
    · exact Or.inl rfl
    · split
      · exact Or.inl rfl
      · split
        · split
          · exact mk _ _ _ rfl
          · exact Or.inl rfl
        · split
          · exact Or.inl rfl
          · split
            · exact Or.inl rfl
            · split
              · exact Or.inl rfl
              · exact mk _ _ _ rfl

theorem map_undirty2 : ∀ (ms : List AD), (ms.map undirty).map undirty = ms.map undirty
  | [] => rfl
  | m :: ms => by
    rw [List.map_cons, List.map_cons, map_undirty2 ms]
    congr 1
    unfold undirty
    rw [List.map_map]
    rfl

theorem create_ads (c : CP) (force : Bool) : (c.create force).1.ads = c.ads ∨ (c.create force).1.ads = c.ads.map undirty := by
  unfold CP.create
  split
  · exact create__ads c force
  · split
    · exact Or.inl rfl
    · rename_i c' e
      unfold CP.createHead at e
      split at e
      · cases e
      · obtain ⟨c2, e1, e2⟩ := Option.map_eq_some_iff.1 e
        have h1 := newNode_ads e1
        have h2 : c'.ads = c.ads.map undirty := by rw [← e2]; exact h1
        rcases create__ads c' force with h | h
        · exact Or.inr (h.trans h2)
        · exact Or.inr (by rw [h, h2, map_undirty2])

/-- calls whose buffers have fewer than 2^63 bytes -/
def Fair : Op → Prop
  | .cp (.access _ o) => small o
  | _ => True

theorem all_step (c : CP) (o : Op) (f : ∀ m ∈ c.ads, Fine m) (h : Fair o) : All2 Later c.ads (step c o).1.ads := by
  have cr : ∀ force, All2 Later c.ads (c.create force).1.ads := by
    intro force
    rcases create_ads c force with e | e
    · rw [e]; exact all_refl f
    · rw [e]; exact all_undirty f
  cases o with
  | restore file => exact all_restoreAll _ _ f
  | save =>
    have h1 := cr true
    unfold step
    dsimp only
    generalize c.create true = z at h1
    obtain ⟨c', r⟩ := z
    cases r with
    | created id snap => exact all_trans h1 (all_undirty (all_fine h1 f))
    | _ => exact h1
  | cp o =>
    show All2 Later c.ads (c.step o).1.ads
    cases o with
    | access k o =>
      unfold CP.step
      dsimp only
      rcases Option.eq_none_or_eq_some (c.ads[k]?) with e | ⟨m, e⟩
      · rw [e]; exact all_refl f
      · rw [e]
        exact all_set k f e (later_access (f m (List.mem_of_getElem? e)) o h)
    | poke k a bs =>
      unfold CP.step
      dsimp only
      rcases Option.eq_none_or_eq_some (c.ads[k]?) with e | ⟨m, e⟩
      · rw [e]; exact all_refl f
      · rw [e]
        refine all_set k f e ?_
        have w := (f m (List.mem_of_getElem? e)).1
        unfold AD.poke
        rcases Option.eq_none_or_eq_some (m.getLine a) with e | ⟨q, e⟩
        · rw [e]; exact Later.refl w
        · rw [e]; exact later_modify (later_getLine w e) _ _
    | createHead =>
      unfold CP.step
      dsimp only
      rcases Option.eq_none_or_eq_some c.createHead with e | ⟨c', e⟩
      · rw [e]; exact all_refl f
      · rw [e]
        unfold CP.createHead at e
        split at e
        · cases e
        · obtain ⟨c2, e1, e2⟩ := Option.map_eq_some_iff.1 e
          have h1 := newNode_ads e1
          have h2 : c'.ads = c.ads.map undirty := by rw [← e2]; exact h1
          show All2 Later c.ads c'.ads
          rw [h2]; exact all_undirty f
    | create force => exact cr force
    | load id =>
      unfold CP.step CP.load
      dsimp only
      split
      · exact all_refl f
      · split
        · exact all_refl f
        · rename_i ads e
          have h1 := all_load f e
          split
          · exact h1
          · split
            · exact h1
            · exact h1
    | delete id =>
      have e : (c.delete id).1.ads = c.ads := by
        unfold CP.delete
        split
        · rfl
        · dsimp only
          split <;> split <;> rfl
      show All2 Later c.ads (c.delete id).1.ads
      rw [e]; exact all_refl f
    | chain id =>
      unfold CP.step
      dsimp only
      split
      · exact all_refl f
      · split <;> exact all_refl f
    | _ => exact all_refl f

theorem all_run : ∀ (os : List Op) (c : CP), (∀ m ∈ c.ads, Fine m) → (∀ o ∈ os, Fair o) →
    All2 Later c.ads (runOps step c os).1.ads
  | [], c, f, _ => all_refl f
  | o :: os, c, f, h => by
    have h1 := all_step c o f (h o (List.mem_cons_self ..))
    have h2 := all_run os (step c o).1 (all_fine h1 f) (fun o ho => h o (List.mem_cons_of_mem _ ho))
    exact all_trans h1 h2

end Sparta.PFile
