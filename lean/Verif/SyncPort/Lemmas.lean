import Verif.SyncPort.Log
/-! Arithmetic and invariants of sync ports. -/
namespace Sparta.SyncPort
variable {α : Type}

/-- the first multiple of `D` that is at least `x` -/
def up (D x : Nat) : Nat := (x + (D - 1)) / D * D

theorem up_dvd (D x : Nat) : D ∣ up D x := ⟨_, Nat.mul_comm _ _⟩

theorem up_ge {D : Nat} (hD : 0 < D) (x : Nat) : x ≤ up D x := by
  unfold up
  have h := Nat.div_add_mod (x + (D - 1)) D
  have h2 := Nat.mod_lt (x + (D - 1)) hD
  rw [Nat.mul_comm] at h
  omega

theorem up_lt {D : Nat} (hD : 0 < D) (x : Nat) : up D x < x + D := by
  unfold up
  have := Nat.div_mul_le_self (x + (D - 1)) D
  omega

theorem up_least {D x t : Nat} (hD : 0 < D) (hd : D ∣ t) (h : x ≤ t) : up D x ≤ t := by
  obtain ⟨k, rfl⟩ := hd
  obtain ⟨j, hj⟩ := up_dvd D x
  have := up_lt hD x
  rw [hj] at this ⊢
  apply Nat.mul_le_mul_left
  have : D * j < D * (k + 1) := by rw [Nat.mul_add, Nat.mul_one]; omega
  have := Nat.lt_of_mul_lt_mul_left this
  omega

theorem up_eq {D x t : Nat} (hD : 0 < D) (hd : D ∣ t) (h : x ≤ t) (h2 : t < x + D) : up D x = t := by
  apply Nat.le_antisymm (up_least hD hd h)
  obtain ⟨k, rfl⟩ := hd
  obtain ⟨j, hj⟩ := up_dvd D x
  have := up_ge hD x
  rw [hj] at this ⊢
  apply Nat.mul_le_mul_left
  have : D * k < D * (j + 1) := by rw [Nat.mul_add, Nat.mul_one]; omega
  have := Nat.lt_of_mul_lt_mul_left this
  omega

theorem up_self {D t : Nat} (hD : 0 < D) (hd : D ∣ t) : up D t = t := up_eq hD hd (Nat.le_refl _) (by omega)

theorem divmul_eq_iff {a b : Nat} : a / b * b = a ↔ b ∣ a :=
  ⟨fun h => ⟨a / b, by rw [Nat.mul_comm]; exact h.symm⟩, Nat.div_mul_cancel⟩

theorem cross_eq {S D : Nat} (hD : 0 < D) (now sd dd : Nat) :
    cross now sd S dd D = if S ∣ now then some (up D (now + (sd + dd)) - now) else none := by
  unfold cross
  by_cases h : S ∣ now
  · rw [if_neg (by rw [ne_eq, divmul_eq_iff]; exact fun e => e h), if_pos h]
    dsimp only
    have hle := Nat.div_mul_le_self (now + (sd + dd)) D
    have hlt : now + (sd + dd) < (now + (sd + dd)) / D * D + D := by
      have h := Nat.div_add_mod (now + (sd + dd)) D
      have h2 := Nat.mod_lt (now + (sd + dd)) hD
      rw [Nat.mul_comm] at h
      omega
    split
    · next hne =>
      have : up D (now + (sd + dd)) = (now + (sd + dd)) / D * D + D :=
        up_eq hD ⟨(now + (sd + dd)) / D + 1, by rw [Nat.mul_add, Nat.mul_one, Nat.mul_comm]⟩ (by omega) (by omega)
      rw [this]
      congr 1
      omega
    · next he =>
      have he : now + (sd + dd) = (now + (sd + dd)) / D * D := Decidable.not_not.1 he
      rw [up_self hD (divmul_eq_iff.1 he.symm)]
      congr 1
      omega
  · rw [if_pos (by rw [ne_eq, divmul_eq_iff]; exact h), if_neg h]

theorem reverse_eq {S D : Nat} {arr sd dd : Nat} (hd : D ∣ arr) (hle : sd + dd ≤ arr) :
    reverse arr sd S dd D = some (arr - (arr - (sd + dd)) / S * S) := by
  unfold reverse
  rw [if_neg (by rw [ne_eq, divmul_eq_iff]; exact fun e => e hd)]
  dsimp only
  rw [if_neg (by omega)]
  have := Nat.div_mul_le_self (arr - (sd + dd)) S
  split
  · congr 1; omega
  · congr 1; omega

/-- the tick at which data arrives, sent at `now` from a clock of period `P` -/
def arrival (c : Cfg) (now P delay : Nat) (slide : Bool) (prev : Option Nat) : Nat :=
  match prev with
  | some p => if slide = true ∧ up c.D (now + (delay * P + c.R)) ≤ p then p + c.D else up c.D (now + (delay * P + c.R))
  | none => up c.D (now + (delay * P + c.R))

def PrevOk (c : Cfg) (prev : Option Nat) : Prop := ∀ p, prev = some p → c.D ∣ p

theorem arrival_dvd {c : Cfg} {now P delay : Nat} {slide : Bool} {prev : Option Nat} (h : PrevOk c prev) : c.D ∣ arrival c now P delay slide prev := by
  unfold arrival
  split
  · next p =>
    split
    · exact Nat.dvd_add (h p rfl) (Nat.dvd_refl _)
    · exact up_dvd _ _
  · exact up_dvd _ _

theorem arrival_ge {c : Cfg} (hD : 0 < c.D) (now P delay : Nat) (slide : Bool) (prev : Option Nat) : now + (delay * P + c.R) ≤ arrival c now P delay slide prev := by
  have := up_ge hD (now + (delay * P + c.R))
  unfold arrival
  split
  · split
    · omega
    · exact this
  · exact this

theorem arrival_up_le {c : Cfg} (now P delay : Nat) (slide : Bool) (prev : Option Nat) : up c.D (now + (delay * P + c.R)) ≤ arrival c now P delay slide prev := by
  unfold arrival
  split
  · split
    · omega
    · exact Nat.le_refl _
  · exact Nat.le_refl _

theorem arrival_noslide (c : Cfg) (now P delay : Nat) (prev : Option Nat) : arrival c now P delay false prev = up c.D (now + (delay * P + c.R)) := by
  unfold arrival
  split
  · rw [if_neg (by simp)]
  · rfl

/-- sliding avoids the collision -/
theorem arrival_slide_later {c : Cfg} (hD : 0 < c.D) {now P delay p : Nat} : p < arrival c now P delay true (some p) := by
  unfold arrival
  dsimp only
  split
  · omega
  · next h => simp only [true_and, Nat.not_le] at h; exact h

/-- an arrival that does not collide is the same with sliding -/
theorem arrival_slide_eq {c : Cfg} {now P delay p : Nat} {slide : Bool} (h : p < arrival c now P delay slide (some p)) :
    arrival c now P delay true (some p) = arrival c now P delay slide (some p) := by
  cases slide with
  | true => rfl
  | false =>
    rw [arrival_noslide] at h ⊢
    unfold arrival
    dsimp only
    rw [if_neg (by simp only [true_and]; omega)]

theorem toReceive_eq {c : Cfg} (hD : 0 < c.D) (now P delay : Nat) (slide : Bool) (prev : Option Nat) (hp : PrevOk c prev) :
    toReceive c now P delay slide prev = if P ∣ now then some (arrival c now P delay slide prev - now) else none := by
  unfold toReceive
  rw [cross_eq hD]
  by_cases h : P ∣ now
  · rw [if_pos h, if_pos h, Option.bind_some]
    dsimp only
    have hge := up_ge hD (now + (delay * P + c.R))
    have e : up c.D (now + (delay * P + c.R)) - now + now = up c.D (now + (delay * P + c.R)) := by omega
    rw [e]
    have hA := arrival_dvd (now := now) (P := P) (delay := delay) (slide := slide) hp
    unfold arrival at hA ⊢
    split at hA
    · next p =>
      dsimp only
      rw [if_neg (by rw [ne_eq, Decidable.not_not]; exact Nat.mod_eq_zero_of_dvd hA)]
    · dsimp only
      rw [if_neg (by rw [ne_eq, Decidable.not_not]; exact Nat.mod_eq_zero_of_dvd hA)]
  · rw [if_neg h, if_neg h]; rfl

/-- the invariant of all histories -/
structure Inv (c : Cfg) (s : Port α) : Prop where
  prevOk : PrevOk c s.prevArrival
  ge : ∀ e ∈ s.pending, s.now ≤ e.1
  dvd : ∀ e ∈ s.pending, c.D ∣ e.1
  le : ∀ e ∈ s.pending, ∃ p, s.prevArrival = some p ∧ e.1 ≤ p
  sorted : s.pending.Pairwise fun a b => a.1 < b.1
  count : s.inFlight = s.pending.length
  setTick : s.setTick ≤ s.now
  late : s.late = true → ∀ e ∈ s.pending, s.now < e.1

theorem inv_init (c : Cfg) : Inv c (Port.init α c) where
  prevOk := fun p h => by cases h
  ge := fun e h => by cases h
  dvd := fun e h => by cases h
  le := fun e h => by cases h
  sorted := .nil
  count := rfl
  setTick := Nat.le_refl _
  late := fun h => by cases h

theorem later_iff (s : Port α) (abs : Nat) : s.later abs = true ↔ ∀ p, s.prevArrival = some p → p < abs := by
  unfold Port.later
  split
  · next p h =>
    rw [h, decide_eq_true_eq]
    constructor
    · intro h' q hq; injection hq with hq; subst hq; exact h'
    · intro h'; exact h' p rfl
  · next h =>
    rw [h]
    exact ⟨fun _ p hp => (by cases hp), fun _ => rfl⟩

/-- what `send_` does -/
theorem sendIn_eq {c : Cfg} (hD : 0 < c.D) (s : Port α) (hp : PrevOk c s.prevArrival) (x : α) (P delay : Nat) (slide : Bool) :
    s.sendIn c x P delay slide = if ¬ P ∣ s.now then (s, none)
      else if s.later (arrival c s.now P delay slide s.prevArrival) = false then (s, none)
      else if arrival c s.now P delay slide s.prevArrival = s.now ∧ s.late = true then
        ({ s with prevArrival := some (arrival c s.now P delay slide s.prevArrival) }, none)
      else ({ s with prevArrival := some (arrival c s.now P delay slide s.prevArrival), pending := s.pending ++ [(arrival c s.now P delay slide s.prevArrival, x)],
                     inFlight := s.inFlight + 1 }, some (arrival c s.now P delay slide s.prevArrival - s.now)) := by
  unfold Port.sendIn
  rw [toReceive_eq hD _ _ _ _ _ hp]
  by_cases h : P ∣ s.now
  · rw [if_pos h, if_neg (by exact fun h' => h' h)]
    have hge := arrival_ge hD s.now P delay slide s.prevArrival
    have hdv := arrival_dvd (now := s.now) (P := P) (delay := delay) (slide := slide) hp
    generalize arrival c s.now P delay slide s.prevArrival = A at hge hdv ⊢
    dsimp only
    have e : A - s.now + s.now = A := by omega
    rw [e, if_neg (by rw [ne_eq, Decidable.not_not]; exact Nat.mod_eq_zero_of_dvd hdv)]
    by_cases h1 : s.later A = false
    · rw [if_pos h1, if_pos h1]
    · rw [if_neg h1, if_neg h1]
      have : (A - s.now = 0 ∧ s.late = true) ↔ (A = s.now ∧ s.late = true) := by
        constructor
        · rintro ⟨a, b⟩; exact ⟨by omega, b⟩
        · rintro ⟨a, b⟩; exact ⟨by omega, b⟩
      simp only [this]
  · rw [if_neg h, if_pos h]

theorem Inv.sendIn {c : Cfg} (hD : 0 < c.D) {s : Port α} (h : Inv c s) (x : α) (P delay : Nat) (slide : Bool) : Inv c (s.sendIn c x P delay slide).1 := by
  rw [sendIn_eq hD s h.prevOk]
  have hge := arrival_ge hD s.now P delay slide s.prevArrival
  have hdv := arrival_dvd (now := s.now) (P := P) (delay := delay) (slide := slide) h.prevOk
  generalize arrival c s.now P delay slide s.prevArrival = A at hge hdv ⊢
  split
  · exact h
  · split
    · exact h
    · next h1 =>
      rw [Bool.not_eq_false, later_iff] at h1
      have hprev : PrevOk c (some A) := fun p hp => by injection hp with hp; subst hp; exact hdv
      have hlt : ∀ e ∈ s.pending, e.1 < A := by
        intro e he
        obtain ⟨p, hp, hle⟩ := h.le e he
        have := h1 p hp
        omega
      split
      · exact ⟨hprev, h.ge, h.dvd, fun e he => ⟨A, rfl, Nat.le_of_lt (hlt e he)⟩, h.sorted, h.count, h.setTick, h.late⟩
      · next h2 =>
        refine ⟨hprev, ?_, ?_, ?_, ?_, ?_, h.setTick, ?_⟩
        · intro e he
          rcases List.mem_append.1 he with he | he
          · exact h.ge e he
          · rw [List.mem_singleton] at he; subst he; show s.now ≤ A; omega
        · intro e he
          rcases List.mem_append.1 he with he | he
          · exact h.dvd e he
          · rw [List.mem_singleton] at he; subst he; exact hdv
        · intro e he
          refine ⟨A, rfl, ?_⟩
          rcases List.mem_append.1 he with he | he
          · exact Nat.le_of_lt (hlt e he)
          · rw [List.mem_singleton] at he; subst he; exact Nat.le_refl _
        · rw [List.pairwise_append]
          refine ⟨h.sorted, List.pairwise_singleton _ _, ?_⟩
          intro a ha b hb
          rw [List.mem_singleton] at hb; subst hb
          exact hlt a ha
        · show s.inFlight + 1 = (s.pending ++ [(A, x)]).length
          rw [List.length_append, h.count]; rfl
        · intro hl e he
          rcases List.mem_append.1 he with he | he
          · exact h.late hl e he
          · rw [List.mem_singleton] at he; subst he
            show s.now < A
            have : A ≠ s.now := fun e' => h2 ⟨e', hl⟩
            omega

theorem takeDue_eq {t : Nat} : ∀ {l : List (Nat × α)}, (∀ e ∈ l, t ≤ e.1) → (l.Pairwise fun a b => a.1 < b.1) →
    takeDue t l = match l with | (u, x) :: r => if u = t then some (x, r) else none | [] => none := by
  intro l
  induction l with
  | nil => intro _ _; rfl
  | cons a l ih =>
    intro hge hs
    obtain ⟨u, x⟩ := a
    unfold takeDue
    dsimp only
    by_cases hu : u = t
    · rw [if_pos hu, if_pos hu]
    · rw [if_neg hu, if_neg hu]
      rw [List.pairwise_cons] at hs
      have hut : t < u := by have := hge (u, x) List.mem_cons_self; dsimp only at this; omega
      rw [ih (fun e he => hge e (List.mem_cons_of_mem _ he)) hs.2]
      cases l with
      | nil => rfl
      | cons b l =>
        obtain ⟨v, y⟩ := b
        dsimp only
        have : u < v := hs.1 (v, y) List.mem_cons_self
        rw [if_neg (by omega)]; rfl

/-- nothing is due -/
def NotDue (s : Port α) : Prop := ∀ e ∈ s.pending, s.now < e.1

theorem Inv.due {c : Cfg} {s : Port α} (h : Inv c s) :
    (takeDue s.now s.pending = none ∧ NotDue s) ∨
      ∃ x rest, takeDue s.now s.pending = some (x, rest) ∧ s.pending = (s.now, x) :: rest ∧ s.late = false ∧ ∀ e ∈ rest, s.now < e.1 := by
  have e := takeDue_eq h.ge h.sorted
  have hl := h.late
  have hge := h.ge
  have hs := h.sorted
  unfold NotDue
  cases hp : s.pending with
  | nil => left; exact ⟨rfl, fun e he => by cases he⟩
  | cons a l =>
    obtain ⟨u, x⟩ := a
    rw [hp] at e hl hge hs
    dsimp only at e
    rw [List.pairwise_cons] at hs
    by_cases hu : u = s.now
    · right
      refine ⟨x, l, by rw [e, if_pos hu], by rw [hu], ?_, ?_⟩
      · cases hlt : s.late with
        | false => rfl
        | true =>
          have := hl hlt (u, x) List.mem_cons_self
          dsimp only at this
          omega
      · intro e' he'
        have := hs.1 e' he'
        dsimp only at this
        omega
    · left
      rw [if_neg hu] at e
      refine ⟨e, ?_⟩
      have h1 : s.now < u := by have := hge (u, x) List.mem_cons_self; dsimp only at this; omega
      intro e' he'
      rcases List.mem_cons.1 he' with he' | he'
      · subst he'; exact h1
      · have := hs.1 e' he'
        dsimp only at this
        omega

/-- the state of the port while it forwards -/
def Port.taken (s : Port α) (rest : List (Nat × α)) : Port α := { s with pending := rest, inFlight := s.inFlight - 1 }

theorem Inv.taken {c : Cfg} {s : Port α} (h : Inv c s) {x : α} {rest : List (Nat × α)} (hp : s.pending = (s.now, x) :: rest) : Inv c (s.taken rest) := by
  have hm : ∀ e ∈ rest, e ∈ s.pending := fun e he => by rw [hp]; exact List.mem_cons_of_mem _ he
  refine ⟨h.prevOk, fun e he => h.ge e (hm e he), fun e he => h.dvd e (hm e he), fun e he => h.le e (hm e he), ?_, ?_, h.setTick, fun hl e he => h.late hl e (hm e he)⟩
  · have := h.sorted
    rw [hp, List.pairwise_cons] at this
    exact this.2
  · show s.inFlight - 1 = rest.length
    rw [h.count, hp]; rfl

/-- what a delivery does: nothing is due, or the consumer gets the data, or it is sent again -/
theorem deliver_eq {c : Cfg} {s : Port α} (h : Inv c s) :
    (NotDue s ∧ s.deliver c = (s, .no)) ∨
    ∃ x rest, s.pending = (s.now, x) :: rest ∧ (∀ e ∈ rest, s.now < e.1) ∧ s.late = false ∧
      s.deliver c = if s.latched = true then (s.taken rest, .got x)
        else match (s.taken rest).sendIn c x c.D 1 false with
          | (s', none) => (s', .threw)
          | (s', some _) => if s'.inFlight > 0 then (s', .held) else (s', .threw) := by
  rcases h.due with ⟨e, hn⟩ | ⟨x, rest, e, hp, hl, hr⟩
  · left
    refine ⟨hn, ?_⟩
    unfold Port.deliver
    rw [e]
  · right
    refine ⟨x, rest, hp, hr, hl, ?_⟩
    unfold Port.deliver
    rw [e]
    dsimp only
    rw [if_neg (by rw [hl]; simp), if_pos h.setTick, if_pos (by rw [h.count, hp]; exact Nat.succ_pos _)]
    show (if (s.taken rest).latched = false then _ else _) = _
    have : (s.taken rest).latched = s.latched := rfl
    rw [this]
    cases s.latched with
    | true => rfl
    | false => rfl

theorem Inv.deliver {c : Cfg} (hD : 0 < c.D) {s : Port α} (h : Inv c s) : Inv c (s.deliver c).1 := by
  rcases deliver_eq h with ⟨_, e⟩ | ⟨x, rest, hp, hr, hl, e⟩
  · rw [e]; exact h
  · rw [e]
    split
    · exact h.taken hp
    · have := (h.taken hp).sendIn hD x c.D 1 false
      split
      · next s' he => rw [he] at this; exact this
      · next s' _ he =>
        rw [he] at this
        split <;> exact this

theorem Inv.send {c : Cfg} (hD : 0 < c.D) {s : Port α} (h : Inv c s) (x : α) (d : Nat) (sl : Bool) : Inv c (s.send c x d sl).1 := by
  unfold Port.send
  split
  · exact h
  · split
    · exact h
    · next cyc _ =>
      have hi := h.sendIn hD x c.S d sl
      split
      · next s' he => rw [he] at hi; exact hi
      · next s' num he =>
        rw [he] at hi
        have hi' : Inv c { s' with prevSend := some cyc } := ⟨hi.prevOk, hi.ge, hi.dvd, hi.le, hi.sorted, hi.count, hi.setTick, hi.late⟩
        split
        · exact hi'
        · split
          · exact hi'
          · exact hi

theorem Inv.setReady {c : Cfg} {s : Port α} (h : Inv c s) (b : Bool) : Inv c (s.setReady b).1 := by
  unfold Port.setReady
  split
  · exact ⟨h.prevOk, h.ge, h.dvd, h.le, h.sorted, h.count, Nat.le_refl _, h.late⟩
  · split
    · exact h
    · exact h

theorem Inv.next {c : Cfg} {s : Port α} (h : Inv c s) (hn : NotDue s) : Inv c { s with now := s.now + 1, late := false } :=
  ⟨h.prevOk, fun e he => hn e he, h.dvd, h.le, h.sorted, h.count, Nat.le_trans h.setTick (Nat.le_succ _), fun hl => by cases hl⟩

theorem Inv.pass {c : Cfg} {s : Port α} (h : Inv c s) (hn : NotDue s) : Inv c { s with late := true } :=
  ⟨h.prevOk, h.ge, h.dvd, h.le, h.sorted, h.count, h.setTick, fun _ => hn⟩

theorem next_eq {c : Cfg} {s : Port α} (h : Inv c s) : (NotDue s ∧ s.step c .next = ({ s with now := s.now + 1, late := false }, .done)) ∨ s.step c .next = (s, .no) := by
  have e : s.step c .next = if (takeDue s.now s.pending).isSome then (s, .no) else ({ s with now := s.now + 1, late := false }, .done) := rfl
  rw [e]
  rcases h.due with ⟨e, hn⟩ | ⟨x, rest, e, hp, hl, hr⟩
  · left; rw [e]; exact ⟨hn, rfl⟩
  · right; rw [e]; rfl

theorem pass_eq {c : Cfg} {s : Port α} (h : Inv c s) : (NotDue s ∧ s.step c .pass = ({ s with late := true }, .done)) ∨ s.step c .pass = (s, .no) := by
  have e : s.step c .pass = if (takeDue s.now s.pending).isSome then (s, .no) else ({ s with late := true }, .done) := rfl
  rw [e]
  rcases h.due with ⟨e, hn⟩ | ⟨x, rest, e, hp, hl, hr⟩
  · left; rw [e]; exact ⟨hn, rfl⟩
  · right; rw [e]; rfl

theorem Inv.step {c : Cfg} (hD : 0 < c.D) (s : Port α) (o : Op α) (h : Inv c s) : Inv c (s.step c o).1 := by
  cases o with
  | send x d sl => exact h.send hD x d sl
  | setReady b => exact h.setReady b
  | deliver => exact h.deliver hD
  | pass =>
    rcases pass_eq h with ⟨hn, e⟩ | e
    · rw [e]; exact h.pass hn
    · rw [e]; exact h
  | next =>
    rcases next_eq h with ⟨hn, e⟩ | e
    · rw [e]; exact h.next hn
    · rw [e]; exact h
  | _ => exact h

end Sparta.SyncPort
