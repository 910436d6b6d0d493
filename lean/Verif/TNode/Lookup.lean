import Verif.TNode.Names2
import Verif.PTree.Lemmas7
/-!
Walking along names; locations.
-/
namespace Sparta.TNode
open Sparta.Strings (Str)
open Sparta.PTree (joinDots names names_join)

theorem joinDots_snoc {K : List Str} (hK : K ≠ []) (x : Str) : joinDots (K ++ [x]) = joinDots K ++ '.' :: x := by
  induction K with
  | nil => exact absurd rfl hK
  | cons a K ih =>
    cases K with
    | nil => rfl
    | cons b K =>
      show a ++ '.' :: joinDots ((b :: K) ++ [x]) = (a ++ '.' :: joinDots (b :: K)) ++ '.' :: x
      rw [ih (by simp)]; simp

theorem joinDots_app {K L : List Str} (hK : K ≠ []) (hL : L ≠ []) : joinDots (K ++ L) = joinDots K ++ '.' :: joinDots L := by
  induction K with
  | nil => exact absurd rfl hK
  | cons a K ih =>
    cases K with
    | nil =>
      cases L with
      | nil => exact absurd rfl hL
      | cons b L => rfl
    | cons b K =>
      show a ++ '.' :: joinDots ((b :: K) ++ L) = (a ++ '.' :: joinDots (b :: K)) ++ '.' :: joinDots L
      rw [ih (by simp)]; simp

/-! ### paths -/

theorem parentOf_alive {s : St} {c p : Nat} (h : parentOf s c = some p) : ∃ cd, s.node c = some cd ∧ cd.parent = some p := by
  unfold parentOf at h
  split at h
  · cases h
  · rename_i cd hc; exact ⟨cd, hc, h⟩

theorem identsOf_some {s : St} {n : Nat} {nd : Node} (h : s.node n = some nd) : identsOf s n = idents nd := by
  unfold identsOf; rw [h]

theorem keysOf_some {s : St} {n : Nat} {nd : Node} (h : s.node n = some nd) : keysOf s n = keys nd := by
  unfold keysOf; rw [h]

theorem nameOf_some {s : St} {n : Nat} {nd : Node} (h : s.node n = some nd) : nameOf s n = nd.name := by
  unfold nameOf; rw [h]

theorem levelOf_some {s : St} {n : Nat} {nd : Node} (h : s.node n = some nd) : levelOf s n = nd.priv := by
  unfold levelOf; rw [h]

theorem childrenOf_some {s : St} {n : Nat} {nd : Node} (h : s.node n = some nd) : childrenOf s n = nd.children := by
  unfold childrenOf; rw [h]

theorem Down.append {s : St} {K : Nat → List Str} {n m x : Nat} {k1 k2 : List Str} (h : Down s K n k1 m) (h' : Down s K m k2 x) :
    Down s K n (k1 ++ k2) x := by
  induction h with
  | here n => exact h'
  | step h1 h2 _ ih => exact .step h1 h2 (ih h')

theorem Down.snoc {s : St} {K : Nat → List Str} {n m x : Nat} {ks : List Str} {k : Str} (h : Down s K n ks m)
    (hp : parentOf s x = some m) (hk : k ∈ K x) : Down s K n (ks ++ [k]) x := h.append (.step hp hk (.here x))

theorem Down.unsnoc {s : St} {K : Nat → List Str} {n x : Nat} {ks : List Str} {k : Str} (h : Down s K n (ks ++ [k]) x) :
    ∃ m, Down s K n ks m ∧ parentOf s x = some m ∧ k ∈ K x := by
  induction ks generalizing n with
  | nil =>
    cases h with
    | step h1 h2 h3 => cases h3; exact ⟨n, .here n, h1, h2⟩
  | cons a ks ih =>
    cases h with
    | step h1 h2 h3 =>
      obtain ⟨m, hm, hp, hk⟩ := ih h3
      exact ⟨m, .step h1 h2 hm, hp, hk⟩

theorem Down.mono {s : St} {K K' : Nat → List Str} (hK : ∀ c k, k ∈ K c → k ∈ K' c) {n x : Nat} {ks : List Str}
    (h : Down s K n ks x) : Down s K' n ks x := by
  induction h with
  | here n => exact .here n
  | step h1 h2 _ ih => exact .step h1 (hK _ _ h2) ih

theorem Down.alive {s : St} (hw : WF s) {K : Nat → List Str} {n x : Nat} {ks : List Str} (h : Down s K n ks x) (hn : (s.node n).isSome) :
    (s.node x).isSome := by
  induction h with
  | here n => exact hn
  | step h1 _ _ ih =>
    obtain ⟨cd, hc, -⟩ := parentOf_alive h1
    exact ih (by rw [hc]; rfl)

theorem Down.above {s : St} {K : Nat → List Str} {n x : Nat} {ks : List Str} (h : Down s K n ks x) :
    x = n ∧ ks = [] ∨ Above (parentOf s) n x ∧ ks ≠ [] := by
  induction h with
  | here n => exact .inl ⟨rfl, rfl⟩
  | step h1 _ _ ih =>
    right
    refine ⟨?_, by simp⟩
    rcases ih with ⟨ih, -⟩ | ⟨ih, -⟩
    · rw [ih]; exact .parent h1
    · exact Above.trans (.parent h1) ih

theorem idents_keys (s : St) (c : Nat) (k : Str) (h : k ∈ identsOf s c) : k ∈ keysOf s c := by
  cases hc : s.node c with
  | none => unfold identsOf at h; rw [hc] at h; cases h
  | some cd => rw [identsOf_some hc] at h; rw [keysOf_some hc]; exact mem_keys.2 (.inl h)

/-! ### walking -/

theorem walk_down {s : St} (hw : WF s) (hn : NOK s) (hv : Valid s) {n x : Nat} {ks : List Str} (h : Down s (identsOf s) n ks x) :
    walk s ks n = .ok (some x) := by
  induction h with
  | here n => rfl
  | @step n c x k ks h1 h2 _ ih =>
    obtain ⟨cd, hc, hcp⟩ := parentOf_alive h1
    obtain ⟨pd, hp, -⟩ := hw.parent_alive hc hcp
    rw [identsOf_some hc] at h2
    rw [walk, hp]
    dsimp only
    rw [if_neg (hv.ident hc h2).2, hn.complete c cd n pd k hc hcp hp h2]
    exact ih

theorem walk_back {s : St} (hn : NOK s) {n x : Nat} {ks : List Str} (hk : ∀ k ∈ ks, k ≠ [])
    (h : walk s ks n = .ok (some x)) : Down s (keysOf s) n ks x := by
  induction ks generalizing n with
  | nil => cases h; exact .here _
  | cons k ks ih =>
    rw [walk] at h
    split at h
    · cases h
    rename_i nd hnd
    rw [if_neg (hk k List.mem_cons_self)] at h
    split at h
    · cases h
    rename_i c hc
    obtain ⟨cd, hcd, hcp, hck⟩ := hn.sound n nd k c hnd (lookup_mem hc)
    refine .step (by rw [parentOf_some hcd]; exact hcp) (by rw [keysOf_some hcd]; exact hck) (ih (fun x hx => hk x (List.mem_cons_of_mem _ hx)) h)

theorem walk_append {s : St} {n : Nat} {k1 k2 : List Str} :
    walk s (k1 ++ k2) n = match walk s k1 n with
      | .error e => .error e
      | .ok none => .ok none
      | .ok (some m) => walk s k2 m := by
  induction k1 generalizing n with
  | nil => rfl
  | cons k k1 ih =>
    rw [List.cons_append, walk, walk]
    cases s.node n with
    | none => rfl
    | some nd =>
      dsimp only
      by_cases hk : k = []
      · rw [if_pos hk, if_pos hk]
        cases nd.parent with
        | none => rfl
        | some p => exact ih
      · rw [if_neg hk, if_neg hk]
        cases lookupName k nd.names with
        | none => rfl
        | some c => exact ih

theorem walk_safe {s : St} (hw : WF s) (hn : NOK s) {n : Nat} {ks : List Str} (ha : (s.node n).isSome) :
    ∃ r, walk s ks n = .ok r ∧ ∀ x, r = some x → (s.node x).isSome := by
  induction ks generalizing n with
  | nil => exact ⟨some n, rfl, fun x hx => by cases hx; exact ha⟩
  | cons k ks ih =>
    rw [walk]
    cases hnd : s.node n with
    | none => rw [hnd] at ha; cases ha
    | some nd =>
      dsimp only
      by_cases hk : k = []
      · rw [if_pos hk]
        cases hp : nd.parent with
        | none => exact ⟨none, rfl, fun x hx => by cases hx⟩
        | some p =>
          obtain ⟨pd, hpd, -⟩ := hw.parent_alive hnd hp
          exact ih (by rw [hpd]; rfl)
      · rw [if_neg hk]
        cases hl : lookupName k nd.names with
        | none => exact ⟨none, rfl, fun x hx => by cases hx⟩
        | some c =>
          obtain ⟨cd, hcd, -⟩ := hn.sound n nd k c hnd (lookup_mem hl)
          exact ih (by rw [hcd]; rfl)

theorem getChild_all {s : St} {n : Nat} {path : Str} : getChild s true n path = walk s (names path) n := by
  unfold getChild
  by_cases h : path = []
  · rw [if_pos h, h, PTree.names_nil]; rfl
  · rw [if_neg h]
    cases hk : walk s (names path) n with
    | error e => rfl
    | ok r => cases r <;> rfl

/-! ### locations -/

theorem locLoop_lv {s : St} {n d : Nat} (h : Lv (parentOf s) n d) {f : Nat} (hf : d < f) : locLoop s f n = locLoop s (d + 1) n := by
  induction h generalizing f with
  | @zero n h =>
    obtain ⟨f, rfl⟩ : ∃ g, f = g + 1 := ⟨f - 1, by omega⟩
    rw [locLoop, locLoop]
    cases hn : s.node n with
    | none => rfl
    | some nd =>
      rw [parentOf_some hn] at h
      dsimp only
      rw [h]
  | @succ n p d h _ ih =>
    obtain ⟨f, rfl⟩ : ∃ g, f = g + 1 := ⟨f - 1, by omega⟩
    rw [locLoop, locLoop]
    cases hn : s.node n with
    | none => rfl
    | some nd =>
      rw [parentOf_some hn] at h
      dsimp only
      rw [h]
      dsimp only
      rw [ih (f := f) (by omega)]

theorem WF.getLocation {s : St} (hw : WF s) {n p : Nat} {nd : Node} (hn : s.node n = some nd) (hp : nd.parent = some p) :
    getLocation s n = if nd.ploc.isSome then none else match getLocation s p with
      | none => none
      | some l => some (l ++ '.' :: nd.name) := by
  obtain ⟨pd, hpd, -⟩ := hw.parent_alive hn hp
  obtain ⟨d, hd⟩ := hw.lv hpd
  have hl : Lv (parentOf s) n (d + 1) := .succ (by rw [parentOf_some hn]; exact hp) hd
  unfold TNode.getLocation
  rw [locLoop_lv hl (hw.lv_lt hn hl), locLoop_lv hd (hw.lv_lt hpd hd), locLoop, hn]
  dsimp only
  rw [hp]
  rfl

/-- the nodes strictly below `a` on the way to `n` have a name -/
def NamedTo (s : St) (a n : Nat) : Prop := ∀ x, (x = n ∨ Above (parentOf s) x n) → Above (parentOf s) a x → nameOf s x ≠ []

theorem loc_path {s : St} (hw : WF s) {a n : Nat} {l t : Str} (ha : getLocation s a = some l) (hab : Above (parentOf s) a n)
    (ht : getLocation s n = some t) (hnm : NamedTo s a n) :
    ∃ ks, ks ≠ [] ∧ Down s (fun c => [nameOf s c]) a ks n ∧ (∀ k ∈ ks, k ≠ []) ∧ t = l ++ '.' :: joinDots ks := by
  induction hab generalizing t with
  | @parent n h =>
    obtain ⟨nd, hn, hp⟩ := parentOf_alive h
    rw [hw.getLocation hn hp, ha] at ht
    split at ht
    · cases ht
    · cases ht
      refine ⟨[nd.name], by simp, .step h (by rw [nameOf_some hn]; simp) (.here _), ?_, rfl⟩
      intro k hk
      rw [List.mem_singleton.1 hk, ← nameOf_some hn]
      exact hnm n (.inl rfl) (.parent h)
  | @up n p h hab ih =>
    obtain ⟨nd, hn, hp⟩ := parentOf_alive h
    rw [hw.getLocation hn hp] at ht
    split at ht
    · cases ht
    split at ht
    · cases ht
    rename_i lp hlp
    cases ht
    have hnm' : NamedTo s a p := by
      intro x hx
      refine hnm x (.inr ?_)
      rcases hx with rfl | hx
      · exact .parent h
      · exact .up h hx
    obtain ⟨ks, h0, h1, h2, h3⟩ := ih hlp hnm'
    refine ⟨ks ++ [nd.name], by simp, h1.snoc h (by rw [nameOf_some hn]; simp), ?_, ?_⟩
    · intro k hk
      rcases List.mem_append.1 hk with hk | hk
      · exact h2 k hk
      · rw [List.mem_singleton.1 hk, ← nameOf_some hn]
        exact hnm n (.inl rfl) (.up h hab)
    · rw [h3, joinDots_snoc h0]; simp

theorem down_names_idents {s : St} {n x : Nat} {ks : List Str} (h : Down s (fun c => [nameOf s c]) n ks x) (hk : ∀ k ∈ ks, k ≠ []) :
    Down s (identsOf s) n ks x := by
  induction h with
  | here n => exact .here n
  | @step n c x k ks h1 h2 _ ih =>
    obtain ⟨cd, hc, -⟩ := parentOf_alive h1
    refine .step h1 ?_ (ih (fun x hx => hk x (List.mem_cons_of_mem _ hx)))
    rw [identsOf_some hc, mem_idents]
    left
    rw [List.mem_singleton.1 h2, nameOf_some hc]
    refine ⟨rfl, ?_⟩
    rw [← nameOf_some hc, ← List.mem_singleton.1 h2]
    exact hk k List.mem_cons_self

theorem Down.valid {s : St} (hv : Valid s) {n x : Nat} {ks : List Str} (h : Down s (identsOf s) n ks x) : ∀ k ∈ ks, k ≠ [] ∧ '.' ∉ k := by
  induction h with
  | here n => intro k hk; cases hk
  | @step n c x k ks h1 h2 _ ih =>
    obtain ⟨cd, hc, -⟩ := parentOf_alive h1
    rw [identsOf_some hc] at h2
    have := hv.ident hc h2
    intro k' hk'
    rcases List.mem_cons.1 hk' with rfl | hk'
    · exact ⟨this.2, validName_dot this.1⟩
    · exact ih k' hk'

theorem getChild_path {s : St} (hw : WF s) (hn : NOK s) (hv : Valid s) {n x : Nat} {ks : List Str} (h : Down s (identsOf s) n ks x) :
    getChild s true n (joinDots ks) = .ok (some x) := by
  rw [getChild_all, names_join (h.valid hv)]
  exact walk_down hw hn hv h

theorem loc_round {s : St} (hw : WF s) (hn : NOK s) (hv : Valid s) {a n : Nat} {l t : Str} (ha : getLocation s a = some l)
    (hab : Above (parentOf s) a n) (ht : getLocation s n = some t) (hnm : NamedTo s a n) :
    ∃ path, t = l ++ '.' :: path ∧ getChild s true a path = .ok (some n) := by
  obtain ⟨ks, -, h1, h2, h3⟩ := loc_path hw ha hab ht hnm
  exact ⟨joinDots ks, h3, getChild_path hw hn hv (down_names_idents h1 h2)⟩

end Sparta.TNode
