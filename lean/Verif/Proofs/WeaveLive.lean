import Verif.Proofs.Weave

/-! # Turns that interleave come to an end, and messages are answered: proofs -/

namespace AJ
open Prog

namespace Weave
variable {D O : Type} {E : Nat → Env D} {clk : Nat → Nat → Time} {B : Backend} {f : Weave D O B}

theorem run_append (ops more : List (WeaveOp D O)) : f.run E B clk (ops ++ more) = (f.run E B clk ops).run E B clk more := by
  unfold run
  rw [List.foldl_append]

theorem serial_append (ops more : List (WeaveOp D O)) :
    f.serial E clk (ops ++ more) = f.serial E clk ops ++ (f.run E B clk ops).serial E clk more := by
  induction ops generalizing f with
  | nil => rfl
  | cons op ops ih =>
    show f.closed op ++ (f.step E B clk op).serial E clk (ops ++ more) = (f.closed op ++ _) ++ _
    rw [ih, List.append_assoc]
    rfl

/-- Steps that do not touch the turn of work queue `q`. -/
theorem step_inside (h : Tidy f) {q : Nat} {x : Inside D O} (hx : f.inside q = some x) {op : WeaveOp D O} (hop : op ≠ .go q) :
    (f.step E B clk op).inside q = some x := by
  cases op with
  | site op =>
    cases hp : op.plain with
    | true => rw [step_plain hp]; exact hx
    | false =>
      cases op with
      | handle p i =>
        show (f.handle E B p i).inside q = some x
        rcases handle_cases (E := E) h (q := p) (i := i) with e | ⟨a, c, op, i', h1, -, -, -, e⟩ <;> rw [e]
        · exact hx
        · show upd f.inside p _ q = _
          unfold upd
          split
          · next e => subst e; rw [h1] at hx; cases hx
          · exact hx
      | turn p op =>
        show (f.turn E B p op).inside q = some x
        rcases turn_cases (E := E) (f := f) (q := p) (op := op) with e | ⟨a, h1, -, -, e⟩ <;> rw [e]
        · exact hx
        · show upd f.inside p _ q = _
          unfold upd
          split
          · next e => subst e; rw [h1] at hx; cases hx
          · exact hx
      | _ => cases hp
  | go p =>
    have hpq : q ≠ p := fun e => hop (by rw [e])
    show (f.go B clk p).inside q = some x
    rcases go_cases (B := B) (clk := clk) (f := f) (q := p) with e | ⟨y, a, -, -, ⟨_, _, -, e⟩ | ⟨-, e⟩⟩ <;> rw [e]
    · exact hx
    · show upd f.inside p _ q = _
      simp only [upd, if_neg hpq]; exact hx
    · show upd f.inside p _ q = _
      simp only [upd, if_neg hpq]; exact hx

/-- Turns in progress can only return. -/
def AllSound (f : Weave D O B) : Prop := ∀ q x, f.inside q = some x → x.rest.Sound

theorem sound_enter (h : AllSound f) (q : Nat) (a : QueueActor) (who : Option (Nat × Nat)) (op : Op D O) : AllSound (f.enter E B q a who op) := by
  intro p x hx
  replace hx : upd f.inside q _ p = some x := hx
  unfold upd at hx
  split at hx
  · cases hx; exact sound_turn ..
  · exact h p x hx

theorem sound_step (ht : Tidy f) (h : AllSound f) (op : WeaveOp D O) : AllSound (f.step E B clk op) := by
  cases op with
  | site op =>
    cases hp : op.plain with
    | true => rw [step_plain hp]; exact h
    | false =>
      cases op with
      | handle q i =>
        show AllSound (f.handle E B q i)
        rcases handle_cases (E := E) ht (q := q) (i := i) with e | ⟨a, c, op, i', -, -, -, -, e⟩ <;> rw [e]
        · exact h
        · exact sound_enter h _ _ _ _
      | turn q op =>
        show AllSound (f.turn E B q op)
        rcases turn_cases (E := E) (f := f) (q := q) (op := op) with e | ⟨a, -, -, -, e⟩ <;> rw [e]
        · exact h
        · exact sound_enter h _ _ _ _
      | _ => cases hp
  | go q =>
    show AllSound (f.go B clk q)
    rcases go_cases (B := B) (clk := clk) (f := f) (q := q) with e | ⟨x, a, hx, -, ⟨_, _, -, e⟩ | ⟨-, e⟩⟩ <;> rw [e]
    · exact h
    · intro p y hy
      replace hy : upd f.inside q none p = some y := hy
      unfold upd at hy
      split at hy
      · cases hy
      · exact h p y hy
    · intro p y hy
      replace hy : upd f.inside q _ p = some y := hy
      unfold upd at hy
      split at hy
      · have hx := h q x hx
        cases hy
        generalize x.rest = p at hx
        cases p with
        | call op k => exact hx _
        | now k => exact hx _
        | _ => exact hx
      · exact h p y hy

theorem sound_run (ht : Tidy f) (h : AllSound f) (ops : List (WeaveOp D O)) : AllSound (f.run E B clk ops) := by
  induction ops generalizing f with
  | nil => exact h
  | cons op ops ih => exact ih (tidy_step ht op) (sound_step ht h op)

theorem run_inside (h : Tidy f) {q : Nat} {x : Inside D O} (hx : f.inside q = some x) (ops : List (WeaveOp D O)) (hops : ∀ op ∈ ops, op ≠ .go q) :
    (f.run E B clk ops).inside q = some x := by
  induction ops generalizing f with
  | nil => exact hx
  | cons op ops ih =>
    exact ih (tidy_step h op) (step_inside h hx (hops op (List.mem_cons_self ..))) fun o ho => hops o (List.mem_cons_of_mem _ ho)

theorem go_ret (h : Tidy f) {q : Nat} {x : Inside D O} (hx : f.inside q = some x) {y : Proc D × Resp D} (hr : x.rest = .ret y) :
    (f.go B clk q).inside q = none := by
  obtain ⟨a, ha⟩ := (h.inside q x hx).queue
  rcases go_cases (B := B) (clk := clk) (f := f) (q := q) with e | ⟨x', a', hx', ha', ⟨p, r, -, e⟩ | ⟨hn, e⟩⟩
  · exfalso
    unfold go at e
    rw [hx, ha] at e
    obtain ⟨who, op, rest⟩ := x
    subst hr
    have := congrArg (fun g => g.inside q) e
    replace this : upd f.inside q none q = f.inside q := this
    rw [hx] at this
    simp [upd] at this
  · rw [e]
    show upd f.inside q none q = none
    simp [upd]
  · rw [hx] at hx'
    cases hx'
    exact absurd hr (hn y)

theorem go_more (h : Tidy f) {q : Nat} {x : Inside D O} (hx : f.inside q = some x) (hr : ∀ y, x.rest ≠ .ret y) :
    ∃ w : World B, (f.go B clk q).inside q = some { x with rest := (x.rest.step1 B (clk q) w).1 } := by
  obtain ⟨a, ha⟩ := (h.inside q x hx).queue
  refine ⟨world f.site q a, ?_⟩
  have e : f.go B clk q = f.move B clk q a x := by
    unfold go
    rw [hx, ha]
    obtain ⟨who, op, rest⟩ := x
    cases rest with
    | ret y => exact absurd rfl (hr y)
    | _ => rfl
  rw [e]
  show upd f.inside q _ q = _
  simp [upd, world]

theorem first_go {q : Nat} {hist : Nat → WeaveOp D O} : ∀ m, hist m = .go q → ∃ m, hist m = .go q ∧ ∀ i < m, hist i ≠ .go q := by
  intro m
  induction m using Nat.strongRecOn with
  | _ m ih =>
    intro hm
    by_cases h : ∃ i < m, hist i = .go q
    · obtain ⟨i, hi, hi'⟩ := h
      exact ih i hi hi'
    · exact ⟨m, hm, fun i hi hi' => h ⟨i, hi, hi'⟩⟩

/-- A turn in progress ends if the work queue goes on again and again. -/
theorem ends (h : Tidy f) {q : Nat} {x : Inside D O} (hx : f.inside q = some x) (hs : x.rest.Sound) (hist : Nat → WeaveOp D O)
    (hfair : ∀ n, ∃ m, n ≤ m ∧ hist m = .go q) : ∃ n, (f.run E B clk ((List.range n).map hist)).inside q = none := by
  have until_go : ∀ (f : Weave D O B) (x : Inside D O) (hist : Nat → WeaveOp D O), Tidy f → f.inside q = some x →
      (∀ n, ∃ m, n ≤ m ∧ hist m = .go q) → ∃ m, ∃ g : Weave D O B, Tidy g ∧ g.inside q = some x ∧
        f.run E B clk ((List.range (m + 1)).map hist) = g.go B clk q := by
    intro f x hist h hx hfair
    obtain ⟨m, hm, hfirst⟩ := first_go _ (hfair 0).choose_spec.2
    refine ⟨m, _, tidy_run (E := E) (clk := clk) h ((List.range m).map hist), run_inside (E := E) (clk := clk) h hx ((List.range m).map hist) ?_, ?_⟩
    · intro o ho
      obtain ⟨i, hi, rfl⟩ := List.mem_map.1 ho
      exact hfirst i (List.mem_range.1 hi)
    · rw [List.range_succ, List.map_append, run_append]
      show step E B clk _ (hist m) = _
      rw [hm]
      rfl
  obtain ⟨who, op, rest⟩ := x
  have more : ∀ (rest : Prog (Proc D × Resp D)), (∀ y, rest ≠ .ret y) →
      (∀ (w : World B) (f : Weave D O B) (hist : Nat → WeaveOp D O), Tidy f → f.inside q = some ⟨who, op, (rest.step1 B (clk q) w).1⟩ →
        (∀ n, ∃ m, n ≤ m ∧ hist m = .go q) → ∃ n, (f.run E B clk ((List.range n).map hist)).inside q = none) →
      ∀ (f : Weave D O B) (hist : Nat → WeaveOp D O), Tidy f → f.inside q = some ⟨who, op, rest⟩ → (∀ n, ∃ m, n ≤ m ∧ hist m = .go q) →
        ∃ n, (f.run E B clk ((List.range n).map hist)).inside q = none := by
    intro rest hn ih f hist h hx hfair
    obtain ⟨m, g, h1, h2, e⟩ := until_go f _ hist h hx hfair
    obtain ⟨w, h3⟩ := go_more (clk := clk) h1 h2 hn
    obtain ⟨n, h4⟩ := ih w (g.go B clk q) (fun i => hist (m + 1 + i)) (tidy_step (E := E) (clk := clk) h1 (.go q)) h3 (by
      intro n
      obtain ⟨k, h5, h6⟩ := hfair (m + 1 + n)
      exact ⟨k - (m + 1), by omega, by rw [← h6]; congr 1; omega⟩)
    refine ⟨m + 1 + n, ?_⟩
    rw [List.range_add, List.map_append, run_append, e, List.map_map]
    exact h4
  induction rest generalizing f hist with
  | fail => exact hs.elim
  | panic => exact hs.elim
  | diverge => exact hs.elim
  | ret y =>
    obtain ⟨m, g, h1, h2, e⟩ := until_go f _ hist h hx hfair
    exact ⟨m + 1, by rw [e]; exact go_ret h1 h2 rfl⟩
  | call o k ih => exact more (.call o k) (fun _ h => by cases h) (fun w f hist h hx hfair => ih _ h hist hfair hx (hs _)) f hist h hx hfair
  | now k ih => exact more (.now k) (fun _ h => by cases h) (fun w f hist h hx hfair => ih _ h hist hfair hx (hs _)) f hist h hx hfair
  | emit e k ih => exact more (.emit e k) (fun _ h => by cases h) (fun w f hist h hx hfair => ih h hist hfair hx hs) f hist h hx hfair

/-- The messages of a turn in progress come after those there are. -/
theorem go_log (h : Tidy f) (q : Nat) : ∃ l, ((f.go B clk q).site.boxes q).log = (f.site.boxes q).log ++ l := by
  rcases go_cases (B := B) (clk := clk) (f := f) (q := q) with e | ⟨x, a, hx, -, ⟨p, r, -, e⟩ | ⟨-, e⟩⟩ <;> rw [e]
  · exact ⟨[], (List.append_nil _).symm⟩
  · refine ⟨[], ?_⟩
    obtain ⟨-, -, -, -, l5, l6⟩ := leave_site h hx p r
    cases hw : x.who with
    | none => rw [← hw, (l5 hw).2]; simp
    | some w => obtain ⟨req, again, -, -, l7⟩ := l6 w.1 w.2 hw; rw [← hw, l7]; simp
  · have : ((f.move B clk q a x).site.boxes q).log = (x.rest.step1 B (clk q) (world f.site q a)).2.log := by
      show (upd f.site.boxes q _ q).log = _
      rw [upd_same]; rfl
    rw [this]
    cases x.rest with
    | emit e k => exact ⟨[e], rfl⟩
    | _ => exact ⟨[], (List.append_nil _).symm⟩

theorem gos_log (h : Tidy f) (q n : Nat) :
    ∃ l, ((f.run E B clk (List.replicate n (.go q))).site.boxes q).log = (f.site.boxes q).log ++ l := by
  induction n generalizing f with
  | zero => exact ⟨[], (List.append_nil _).symm⟩
  | succ n ih =>
    obtain ⟨l, hl⟩ := go_log (clk := clk) h q
    obtain ⟨l', hl'⟩ := ih (tidy_step (E := E) (clk := clk) h (.go q))
    refine ⟨l ++ l', ?_⟩
    rw [List.replicate_succ]
    show ((run E B clk (f.step E B clk (.go q)) _).site.boxes q).log = _
    rw [hl']
    show ((f.go B clk q).site.boxes q).log ++ l' = _
    rw [hl, List.append_assoc]

/-- A work queue left to itself ends its turn. -/
theorem settle (h : Tidy f) (hs : AllSound f) (q : Nat) : ∃ n, (f.run E B clk (List.replicate n (.go q))).inside q = none := by
  cases hx : f.inside q with
  | none => exact ⟨0, hx⟩
  | some x =>
    obtain ⟨n, hn⟩ := ends (E := E) (clk := clk) h hx (hs q x hx) (fun _ => .go q) (fun n => ⟨n, Nat.le_refl _, rfl⟩)
    refine ⟨n, ?_⟩
    have e : (List.range n).map (fun _ => WeaveOp.go q) = List.replicate n (WeaveOp.go (D := D) (O := O) q) := by
      rw [List.map_const', List.length_range]
    rw [← e]
    exact hn

/-! ## Messages are answered -/

/-- The turn in progress handles the front of the mailbox. -/
def atFront : Option (Inside D O) → Bool
  | some x => x.who.any (·.2 == 0)
  | none => false

/-- How often the work queue must still turn to its mailbox for the message at place `n`. -/
def need (f : Weave D O B) (q n : Nat) : Nat := if atFront (f.inside q) then n else n + 1

theorem need_eq {q : Nat} {y : Option (Inside D O)} (h : f.inside q = y) (n : Nat) : f.need q n = if atFront y then n else n + 1 := by
  unfold need; rw [h]

theorem step_trace (h : Tidy f) (op : WeaveOp D O) : ∃ l, (f.step E B clk op).site.trace = f.site.trace ++ l := by
  have same : ∃ l, f.site.trace = f.site.trace ++ l := ⟨[], (List.append_nil _).symm⟩
  cases op with
  | site op =>
    cases hp : op.plain with
    | true => rw [step_plain hp]; exact Site.step_trace ..
    | false =>
      cases op with
      | handle p i =>
        show ∃ l, (f.handle E B p i).site.trace = _
        rcases handle_cases (E := E) h (q := p) (i := i) with e | ⟨a, c, op, i', h1, -, -, -, e⟩ <;> rw [e] <;> exact same
      | turn p op =>
        show ∃ l, (f.turn E B p op).site.trace = _
        rcases turn_cases (E := E) (f := f) (q := p) (op := op) with e | ⟨a, h1, -, -, e⟩ <;> rw [e] <;> exact same
      | _ => cases hp
  | go p =>
    show ∃ l, (f.go B clk p).site.trace = _
    rcases go_cases (B := B) (clk := clk) (f := f) (q := p) with e | ⟨x, a, hx, -, ⟨y, r, -, e⟩ | ⟨-, e⟩⟩ <;> rw [e]
    · exact same
    · exact ⟨_, (leave_site h hx y r).2.2.1⟩
    · exact same

theorem run_trace (h : Tidy f) (ops : List (WeaveOp D O)) : ∃ l, (f.run E B clk ops).site.trace = f.site.trace ++ l := by
  induction ops generalizing f with
  | nil => exact ⟨[], (List.append_nil _).symm⟩
  | cons op ops ih =>
    obtain ⟨l, hl⟩ := step_trace (E := E) (clk := clk) h op
    obtain ⟨l', hl'⟩ := ih (tidy_step (E := E) (clk := clk) h op)
    exact ⟨l ++ l', by show ((f.step E B clk op).run E B clk ops).site.trace = _; rw [hl', hl, List.append_assoc]⟩

theorem waits_step (h : Tidy f) {q n c : Nat} {op : Op D O} (hn : (f.site.boxes q).mailbox[n]? = some (c, op)) {a : QueueActor}
    (ha : f.site.hub.queues[q]? = some a) (o : WeaveOp D O) :
    (∃ m, ((f.step E B clk o).site.boxes q).mailbox[m]? = some (c, op) ∧
      (f.step E B clk o).need q m + (match o with
        | .site o => if o.takes q && (f.inside q).isNone then 1 else 0
        | .go _ => 0) ≤ f.need q n) ∨
      ∃ r, (f.step E B clk o).site.trace = f.site.trace ++ [.turn q (some c) op r] ∧ o = .go q ∧ (f.step E B clk o).inside q = none := by
  cases o with
  | site o =>
    cases hp : o.plain with
    | true =>
      left
      have hto : o.takes q = false := by cases o <;> first | rfl | cases hp
      rw [step_plain hp]
      obtain ⟨l, hl⟩ := (Site.calm_plain (E := E) (clk := clk) f.site hp).mail q
      refine ⟨n, ?_, ?_⟩
      · show ((f.site.step E B clk o).boxes q).mailbox[n]? = _
        rw [hl, List.getElem?_append_left (List.getElem?_eq_some_iff.1 hn).1]; exact hn
      · show _ + (if (o.takes q && _) = true then 1 else 0) ≤ _
        rw [hto]; exact Nat.le_refl _
    | false =>
      cases o with
      | handle p i =>
        left
        show ∃ m, ((f.handle E B p i).site.boxes q).mailbox[m]? = _ ∧ (f.handle E B p i).need q m + _ ≤ _
        have hlook : ∀ b, ((SiteOp.handle p i : SiteOp D O).takes q && b) = true → p = q ∧ i = 0 ∧ b = true := by
          intro b hb
          unfold SiteOp.takes at hb
          cases i with
          | zero => simp only [Bool.and_eq_true, beq_iff_eq] at hb; exact ⟨hb.1, rfl, hb.2⟩
          | succ i => simp at hb
        rcases handle_cases (E := E) h (q := p) (i := i) with e | ⟨a', c', o', i', h1, h2, h3, h4, e⟩
        · rw [e]
          refine ⟨n, hn, ?_⟩
          dsimp only
          split
          · next hb =>
            obtain ⟨rfl, rfl, hi⟩ := hlook _ hb
            exfalso
            have hi : f.inside p = none := by simpa using hi
            have hlen : 0 < (f.site.boxes p).mailbox.length := Nat.lt_of_le_of_lt (Nat.zero_le _) (List.getElem?_eq_some_iff.1 hn).1
            obtain ⟨⟨c', o'⟩, h4⟩ : ∃ w, (f.site.boxes p).mailbox[0]? = some w := ⟨_, List.getElem?_eq_getElem hlen⟩
            obtain ⟨req, again, hu⟩ := (h.links.mail p c' o').1 (List.mem_of_getElem? h4)
            have e' : f.handle E B p 0 = f.enter E B p a (some (c', 0)) o' := by
              unfold handle
              have hz : (if (f.site.boxes p).proc.alive = true then 0 else 0) = 0 := by split <;> rfl
              simp only [hi, ha, hz, h4, hu]
            have := congrArg (fun g => g.inside p) (e'.symm.trans e)
            replace this : upd f.inside p _ p = f.inside p := this
            rw [hi] at this
            simp [upd] at this
          · exact Nat.le_refl _
        · rw [e]
          refine ⟨n, hn, ?_⟩
          by_cases hpq : p = q
          · subst hpq
            have k1 : f.need p n = n + 1 := need_eq h1 n
            have k2 : (f.enter E B p a' (some (c', i')) o').need p n = if i' = 0 then n else n + 1 := by
              rw [need_eq (upd_same ..)]
              simp [atFront]
            rw [k1, k2]
            dsimp only
            by_cases hb : ((SiteOp.handle p i : SiteOp D O).takes p && (f.inside p).isNone) = true
            · have hi := (hlook _ hb).2.1
              have : i' = 0 := by rw [h3, hi]; split <;> rfl
              rw [if_pos this, if_pos hb]
              exact Nat.le_refl _
            · rw [if_neg hb]
              split <;> omega
          · have k2 : (f.enter E B p a' (some (c', i')) o').need q n = f.need q n := by
              exact need_eq (by show upd f.inside p _ q = _; simp only [upd, if_neg (Ne.symm hpq)]) n
            rw [k2]
            dsimp only
            split
            · next hb => exact absurd (hlook _ hb).1 hpq
            · exact Nat.le_refl _
      | turn p o =>
        left
        show ∃ m, ((f.turn E B p o).site.boxes q).mailbox[m]? = _ ∧ (f.turn E B p o).need q m + 0 ≤ _
        rcases turn_cases (E := E) (f := f) (q := p) (op := o) with e | ⟨a', h1, h2, h3, e⟩ <;> rw [e]
        · exact ⟨n, hn, Nat.le_refl _⟩
        · refine ⟨n, hn, ?_⟩
          by_cases hpq : q = p
          · subst hpq
            rw [need_eq (upd_same ..), need_eq h1]
            exact Nat.le_refl _
          · rw [need_eq (y := f.inside q) (by show upd f.inside p _ q = _; simp only [upd, if_neg hpq])]
            exact Nat.le_refl _
      | _ => cases hp
  | go p =>
    show (∃ m, ((f.go B clk p).site.boxes q).mailbox[m]? = _ ∧ (f.go B clk p).need q m + 0 ≤ _) ∨
      ∃ r, (f.go B clk p).site.trace = _ ∧ _ ∧ (f.go B clk p).inside q = none
    rcases go_cases (B := B) (clk := clk) (f := f) (q := p) with e | ⟨x, a', hx, hq, ⟨y, r, -, e⟩ | ⟨-, e⟩⟩ <;> rw [e]
    · exact .inl ⟨n, hn, Nat.le_refl _⟩
    · obtain ⟨-, -, l3, l4, l5, l6⟩ := leave_site h hx y r
      have hin : ∀ m, (f.leave B p x.who x.op y r).need q m = if q = p then m + 1 else f.need q m := by
        intro m
        by_cases hpq : q = p
        · subst hpq
          rw [need_eq (upd_same ..), if_pos rfl]
          rfl
        · rw [if_neg hpq]
          exact need_eq (by show upd f.inside p _ q = _; simp only [upd, if_neg hpq]) m
      by_cases hpq : q = p
      · subst hpq
        cases hw : x.who with
        | none =>
          left
          rw [← hw]
          refine ⟨n, by rw [(l5 hw).2]; exact hn, ?_⟩
          rw [hin, if_pos rfl, need_eq hx]
          simp [atFront, hw]
        | some w =>
          obtain ⟨c', i⟩ := w
          obtain ⟨req, again, hu, -, l7⟩ := l6 c' i hw
          obtain ⟨k1, -⟩ := (h.inside q x hx).asked c' i hw
          have hf : f.need q n = if i = 0 then n else n + 1 := by
            rw [need_eq hx]
            simp [atFront, hw]
          rw [← hw]
          by_cases hi : i = n
          · subst hi
            rw [hn] at k1
            cases k1
            exact .inr ⟨r, by rw [l3, hw]; rfl, rfl, upd_same ..⟩
          · left
            by_cases hlt : i < n
            · refine ⟨n - 1, ?_, ?_⟩
              · rw [l7]
                show ((f.site.boxes q).mailbox.eraseIdx i)[n - 1]? = _
                rw [List.getElem?_eraseIdx_of_ge (by omega)]
                rw [show n - 1 + 1 = n by omega]; exact hn
              · rw [hin, if_pos rfl, hf]
                split <;> omega
            · refine ⟨n, ?_, ?_⟩
              · rw [l7]
                show ((f.site.boxes q).mailbox.eraseIdx i)[n]? = _
                rw [List.getElem?_eraseIdx_of_lt (by omega)]; exact hn
              · rw [hin, if_pos rfl, hf, if_neg (by omega)]
                exact Nat.le_refl _
      · left
        refine ⟨n, by rw [l4 q hpq]; exact hn, ?_⟩
        rw [hin, if_neg hpq]; exact Nat.le_refl _
    · left
      obtain ⟨-, -, -, h4⟩ := move_calm (clk := clk) f p a' x
      refine ⟨n, by rw [(h4 q).1]; exact hn, ?_⟩
      by_cases hpq : q = p
      · subst hpq
        rw [need_eq (upd_same ..), need_eq hx]
        exact Nat.le_refl _
      · rw [need_eq (y := f.inside q) (by show upd f.inside p _ q = _; simp only [upd, if_neg hpq])]
        exact Nat.le_refl _

theorem waits_run (h : Tidy f) {q n c : Nat} {op : Op D O} (hn : (f.site.boxes q).mailbox[n]? = some (c, op)) {a : QueueActor}
    (ha : f.site.hub.queues[q]? = some a) (ops : List (WeaveOp D O)) (hc : f.need q n < f.looks E clk q ops) :
    ∃ r l l', (f.run E B clk ops).site.trace = f.site.trace ++ l ++ .turn q (some c) op r :: l' := by
  induction ops generalizing f n a with
  | nil => exact absurd hc (Nat.not_lt_zero _)
  | cons o ops ih =>
    have ht := tidy_step (E := E) (clk := clk) h o
    rcases waits_step (E := E) (clk := clk) h hn ha o with ⟨m, h1, h2⟩ | ⟨r, h1, -⟩
    · obtain ⟨l, hl⟩ := step_trace (E := E) (clk := clk) h o
      obtain ⟨req, again, hu⟩ := (ht.links.mail q c op).1 (List.mem_of_getElem? h1)
      have hlink := ht.links.users c
      rw [hu] at hlink
      obtain ⟨a', ha', -⟩ := hlink.2.typed ht.links.typed
      obtain ⟨r, l1, l2, h4⟩ := ih ht h1 ha' (by
        clear hl hu hlink ha' h1 ht ih
        unfold looks at hc
        cases o <;> dsimp only at hc h2 <;> omega)
      exact ⟨r, l ++ l1, l2, by show ((f.step E B clk o).run E B clk ops).site.trace = _; rw [h4, hl]; simp⟩
    · obtain ⟨l', hl'⟩ := run_trace (E := E) (clk := clk) ht ops
      exact ⟨r, [], l', by show ((f.step E B clk o).run E B clk ops).site.trace = _; rw [hl', h1]; simp⟩

/-! ## Where the turns of the serial history come from -/

/-- Turns in progress that no client asked for were begun by a step. -/
def Begun (past : List (WeaveOp D O)) (f : Weave D O B) : Prop := ∀ q x, f.inside q = some x → x.who = none → .site (.turn q x.op) ∈ past

theorem begun_step (h : Tidy f) {past : List (WeaveOp D O)} (hb : Begun past f) (o : WeaveOp D O) : Begun (past ++ [o]) (f.step E B clk o) := by
  have keep : ∀ {g : Weave D O B}, Begun past g → Begun (past ++ [o]) g := fun hg q x hx hw => List.mem_append_left _ (hg q x hx hw)
  cases o with
  | site o =>
    cases hp : o.plain with
    | true => rw [step_plain hp]; exact keep hb
    | false =>
      cases o with
      | handle p i =>
        show Begun _ (f.handle E B p i)
        rcases handle_cases (E := E) h (q := p) (i := i) with e | ⟨a, c, op, i', h1, -, -, -, e⟩ <;> rw [e]
        · exact keep hb
        · intro q x hx hw
          replace hx : upd f.inside p _ q = some x := hx
          unfold upd at hx
          split at hx
          · cases hx; cases hw
          · exact keep hb q x hx hw
      | turn p op =>
        show Begun _ (f.turn E B p op)
        rcases turn_cases (E := E) (f := f) (q := p) (op := op) with e | ⟨a, h1, -, -, e⟩ <;> rw [e]
        · exact keep hb
        · intro q x hx hw
          replace hx : upd f.inside p _ q = some x := hx
          unfold upd at hx
          split at hx
          · next e' => subst e'; cases hx; exact List.mem_append_right _ (List.mem_cons_self ..)
          · exact keep hb q x hx hw
      | _ => cases hp
  | go p =>
    show Begun _ (f.go B clk p)
    rcases go_cases (B := B) (clk := clk) (f := f) (q := p) with e | ⟨y, a, hy, -, ⟨_, _, -, e⟩ | ⟨-, e⟩⟩ <;> rw [e]
    · exact keep hb
    · intro q x hx hw
      replace hx : upd f.inside p none q = some x := hx
      unfold upd at hx
      split at hx
      · cases hx
      · exact keep hb q x hx hw
    · intro q x hx hw
      replace hx : upd f.inside p _ q = some x := hx
      unfold upd at hx
      split at hx
      · next e' => subst e'; cases hx; exact keep hb q y hy hw
      · exact keep hb q x hx hw

theorem closed_turn {past : List (WeaveOp D O)} (hb : Begun past f) {o : WeaveOp D O} {q : Nat} {op : Op D O} (h : .turn q op ∈ f.closed o) :
    .site (.turn q op) ∈ past := by
  cases o with
  | site o => cases o <;> simp [closed] at h
  | go p =>
    simp only [closed] at h
    cases hx : f.inside p with
    | none => rw [hx] at h; simp at h
    | some x =>
      rw [hx] at h
      have := hb p x hx
      obtain ⟨who, o, rest⟩ := x
      cases rest with
      | ret y =>
        cases who with
        | none =>
          simp only [List.mem_singleton, SiteOp.turn.injEq] at h
          obtain ⟨rfl, rfl⟩ := h
          exact this rfl
        | some w => simp at h
      | _ => cases who <;> simp at h

theorem begun_run (h : Tidy f) {past : List (WeaveOp D O)} (hb : Begun past f) (ops : List (WeaveOp D O)) : Begun (past ++ ops) (f.run E B clk ops) := by
  induction ops generalizing f past with
  | nil => rw [List.append_nil]; exact hb
  | cons o ops ih =>
    have := ih (tidy_step (E := E) (clk := clk) h o) (begun_step h hb o)
    rwa [List.append_assoc] at this

theorem serial_turn (h : Tidy f) {past : List (WeaveOp D O)} (hb : Begun past f) {ops : List (WeaveOp D O)} {q : Nat} {op : Op D O}
    (hm : .turn q op ∈ f.serial E clk ops) : .site (.turn q op) ∈ past ++ ops := by
  induction ops generalizing f past with
  | nil => cases hm
  | cons o ops ih =>
    rcases List.mem_append.1 hm with hm | hm
    · exact List.mem_append_left _ (closed_turn hb hm)
    · have := ih (tidy_step (E := E) (clk := clk) h o) (begun_step h hb o) hm
      rwa [List.append_assoc] at this

theorem serial_begin {ops : List (WeaveOp D O)} {c : Nat} {req : Req D} (hm : .begin c req ∈ f.serial E clk ops) : .site (.begin c req) ∈ ops := by
  induction ops generalizing f with
  | nil => cases hm
  | cons o ops ih =>
    rcases List.mem_append.1 hm with hm | hm
    · rw [closed_begin hm]; exact List.mem_cons_self ..
    · exact List.mem_cons_of_mem _ (ih hm)

theorem gos_hub (h : Tidy f) (q n : Nat) : (f.run E B clk (List.replicate n (.go q))).site.hub = f.site.hub := by
  induction n generalizing f with
  | zero => rfl
  | succ n ih =>
    rw [List.replicate_succ]
    show (run E B clk (f.step E B clk (.go q)) _).site.hub = _
    rw [ih (tidy_step (E := E) (clk := clk) h (.go q))]
    show (f.go B clk q).site.hub = _
    rcases go_cases (B := B) (clk := clk) (f := f) (q := q) with e | ⟨x, a, hx, -, ⟨y, r, -, e⟩ | ⟨-, e⟩⟩ <;> rw [e]
    · exact (leave_site h hx y r).1
    · rfl

theorem own_step (h : Tidy f) (hown : ∀ q op r, .turn q none op r ∈ f.site.trace → op.Own) (o : WeaveOp D O) :
    ∀ q op r, .turn q none op r ∈ (f.step E B clk o).site.trace → op.Own := by
  cases o with
  | site o =>
    cases hp : o.plain with
    | true => rw [step_plain hp]; exact Site.step_own _ _ hown
    | false =>
      cases o with
      | handle p i =>
        show ∀ q op r, .turn q none op r ∈ (f.handle E B p i).site.trace → op.Own
        rcases handle_cases (E := E) h (q := p) (i := i) with e | ⟨a, c, op, i', h1, -, -, -, e⟩ <;> rw [e] <;> exact hown
      | turn p op =>
        show ∀ q o r, .turn q none o r ∈ (f.turn E B p op).site.trace → o.Own
        rcases turn_cases (E := E) (f := f) (q := p) (op := op) with e | ⟨a, h1, -, -, e⟩ <;> rw [e] <;> exact hown
      | _ => cases hp
  | go p =>
    show ∀ q op r, .turn q none op r ∈ (f.go B clk p).site.trace → op.Own
    rcases go_cases (B := B) (clk := clk) (f := f) (q := p) with e | ⟨x, a, hx, -, ⟨y, r, -, e⟩ | ⟨-, e⟩⟩ <;> rw [e]
    · exact hown
    · intro q op r' hm
      rw [(leave_site h hx y r).2.2.1] at hm
      rcases List.mem_append.1 hm with hm | hm
      · exact hown q op r' hm
      · simp only [List.mem_singleton, SiteEvent.turn.injEq] at hm
        obtain ⟨-, hw, rfl, -⟩ := hm
        have hin := (h.inside p x hx).own (by cases hw' : x.who with
          | none => rfl
          | some w => rw [hw'] at hw; cases hw)
        generalize x.op = o at hin
        cases o <;> trivial
    · exact hown

end Weave
end AJ
