import Verif.Proofs.SiteSend
import Verif.Proofs.Endless
import Verif.Spec.EndlessSite

/-! # Endless histories of a process -/

namespace AJ
namespace Site
variable {D O : Type} {E : Nat → Env D} {clk : Nat → Nat → Time} {kind : Str → Nat} {k : Str}

section
variable {B : Backend} {t : Site D O B} {ops : Nat → SiteOp D O}

theorem after_run (n : Nat) : Site.after E B clk t ops n = t.run E B clk ((List.range n).map ops) := by
  induction n with
  | zero => rfl
  | succ n ih =>
    rw [List.range_succ, List.map_append, run_append, ← ih]
    rfl

theorem after_add (n m : Nat) : Site.after E B clk t ops (n + m) = Site.after E B clk (Site.after E B clk t ops n) (fun i => ops (n + i)) m := by
  induction m with
  | zero => rfl
  | succ m ih =>
    show (Site.after E B clk t ops (n + m)).step E B clk (ops (n + m)) = _
    rw [ih]; rfl

theorem after_queues {n m : Nat} (h : n ≤ m) {q : Nat} {a : QueueActor} (ha : (Site.after E B clk t ops n).hub.queues[q]? = some a) :
    (Site.after E B clk t ops m).hub.queues[q]? = some a := by
  induction h with
  | refl => exact ha
  | step _ ih => exact step_queues _ _ ih

end

section
variable {t : Site D O SpecB}

/-- Turns that no client asks for come from the history. -/
theorem step_inner (hl : Links t) (o : SiteOp D O) {q : Nat} {who : Option Nat} {op : Op D O} {r : Resp D} (hi : op.inner = true)
    (h : (t.step E SpecB clk o).trace = t.trace ++ [.turn q who op r]) : o = .turn q op := by
  have none : ∀ {t' : Site D O SpecB}, t'.trace = t.trace → t'.trace = t.trace ++ [.turn q who op r] → o = .turn q op := by
    intro t' h1 h2
    rw [h1] at h2
    exact absurd (congrArg List.length h2) (by simp)
  have one : ∀ {t' : Site D O SpecB} {e}, t'.trace = t.trace ++ [e] → (e = .turn q who op r → o = .turn q op) →
      t'.trace = t.trace ++ [.turn q who op r] → o = .turn q op := by
    intro t' e h1 h2 h3
    rw [h1] at h3
    exact h2 (by simpa using h3)
  revert h
  cases o with
  | begin c req =>
    show (t.begin SpecB c req).trace = _ → _
    unfold begin
    cases t.users c with
    | free => exact one rfl (fun h => by cases h)
    | done => exact one rfl (fun h => by cases h)
    | _ => exact none rfl
  | client c x =>
    show (t.client SpecB c x).trace = _ → _
    unfold client
    split <;> exact none rfl
  | engine e => exact none rfl
  | post c =>
    show (t.post SpecB c).trace = _ → _
    unfold post
    split
    · split
      · exact none rfl
      · split <;> exact none rfl
      · exact one rfl (fun h => by cases h)
      · exact none rfl
    · exact none rfl
  | handle p i =>
    show (t.handle E SpecB clk p i).trace = _ → _
    unfold handle
    split
    · exact none rfl
    · next a ha =>
      dsimp only
      generalize (if (t.boxes p).proc.alive then 0 else i) = i
      split
      · exact none rfl
      · next c op' hm =>
        split
        · refine one (e := .turn p (some c) op' (t.play E SpecB clk p a (some c) op').2) rfl ?_
          intro h
          have hop : op' = op := by injection h
          obtain ⟨req, again, hu⟩ := (hl.mail p c op').1 (List.mem_of_getElem? hm)
          obtain ⟨past, now, -, -, evs, -, hunder⟩ : Tale _ c _ (.posted req op' again p) := by have := hl.tale c; rwa [hu] at this
          rw [hop] at hunder
          generalize hso : some op = so at hunder
          cases hunder with
          | first => cases req <;> cases hso <;> cases hi
          | again => cases hso; cases hi
        · exact none rfl
  | turn p op' =>
    show (t.turn E SpecB clk p op').trace = _ → _
    unfold turn
    split
    · exact none rfl
    · split
      · next a ha hi =>
        refine one (e := .turn p .none op' (t.play E SpecB clk p a .none op').2) rfl ?_
        intro h
        cases h
        rfl
      · exact none rfl
  | take c =>
    show (t.take SpecB c).trace = _ → _
    unfold take
    split
    · dsimp only
      split
      · exact none rfl
      · exact one rfl (fun h => by cases h)
    · exact one rfl (fun h => by cases h)
    · exact none rfl

/-- Reading changes nothing. -/
theorem get_same {E : Env D} {name : Str} {clk : Nat → Time} (s : Sys D SpecB) (id : Str) : (Sys.step E name SpecB clk s (.get id : Op D O)).1 = s := by
  by_cases ha : s.alive = true
  swap
  · rw [Sys.step_dead s (by simpa using ha)]
  have hs := Sys.step_cases (E := E) (name := name) (clk := clk) s ha (.get id : Op D O)
  generalize Sys.step E name SpecB clk s (.get id : Op D O) = p at hs ⊢
  cases hs
  all_goals rfl

/-- A step of the process is a turn of the work queue alone, which may be one that changes nothing. -/
theorem mirror_turn (hl : Links t) {q : Nat} {a : QueueActor} (ha : t.hub.queues[q]? = some a) (hcl : ∀ d, Clean k (t.users d)) (o : SiteOp D O) :
    ∃ op, (t.step E SpecB clk o).mirror .spec E clk q a = (Sys.step (E a.ty) a.name Impl.spec.B (clk q) (t.mirror .spec E clk q a) op).1 ∧
      (o.ticks q = true ↔ op = .tick) ∧ ¬ op.Touches k ∧ ∀ i x, op = .finish i x → o = .turn q (.finish i x) := by
  rcases mirror_step (E := E) (clk := clk) hl ha o with ⟨e, et, -⟩ | ⟨who, op, r, etr, etick, e⟩
  · refine ⟨.get [], ?_, by simp [et], id, fun _ _ h => by cases h⟩
    rw [e]
    exact (get_same (O := O) _ _).symm
  · refine ⟨op, e, etick, ?_, fun i x hop => ?_⟩
    · intro hto2
      obtain ⟨l, h4, h5, h6⟩ := step_touch (E := E) (clk := clk) hl k o
      rw [etr] at h4
      have h4 := List.append_cancel_left h4
      obtain ⟨d, req, again, -, hu, -⟩ := h6 q who op r (by rw [← h4]; exact List.mem_singleton.2 rfl) hto2
      have := hcl d
      rw [hu] at this
      exact this.1 hto2
    · subst hop
      exact step_inner hl o rfl etr

variable {ops : Nat → SiteOp D O}

local notation "τ" n:max => Site.after E SpecB clk t ops n

/-- What stays in an endless history. -/
structure Endless (E : Nat → Env D) (clk : Nat → Nat → Time) (kind : Str → Nat) (t : Site D O SpecB) : Prop where
  links : Links t
  alone : Alone E clk kind t
  single : t.hub.Single

theorem Endless.after (L : ∀ ty, (E ty).Lawful) (h : Endless E clk kind t) (hon : ∀ n c req, ops n = .begin c req → req.On kind)
    (h1 : ∀ n, (τ n).hub.engines.length ≤ 1) (n : Nat) : Endless E clk kind (τ n) := by
  induction n with
  | zero => exact h
  | succ n ih =>
    have hs' := step_single (E := E) (clk := clk) ih.single (h1 n) (ops n)
    exact ⟨links_step ih.links _, alone_step L ih.links ih.alone _ (hon n) (ih.single.once (h1 n)) (hs'.once (h1 (n + 1))), hs'⟩

/-- A work queue in an endless history of a process, alone. -/
theorem Serves.mirror (L : ∀ ty, (E ty).Lawful) (h : Endless E clk kind t) (hon : ∀ n c req, ops n = .begin c req → req.On kind)
    (h1 : ∀ n, (τ n).hub.engines.length ≤ 1) (hto : ∀ n c req, ops n = .begin c req → ¬ req.Touches k) (hcl : ∀ d, Clean k (t.users d))
    {q : Nat} {a : QueueActor} (ha : t.hub.queues[q]? = some a) (H : Site.Serves .spec E clk k q a t ops) :
    ∃ ops' : Nat → Op D O, (∀ n, (τ n).mirror .spec E clk q a = Sys.after (E a.ty) a.name Impl.spec.B (clk q) (t.mirror .spec E clk q a) ops' n) ∧
      (∀ n i x, ops' n = .finish i x → ops n = .turn q (.finish i x)) ∧
      Sys.Serves .spec (E a.ty) a.name (clk q) k (t.mirror .spec E clk q a) ops' := by
  have hE := fun n => h.after L hon h1 n
  have hC : ∀ n d, Clean k ((τ n).users d) := by
    intro n
    induction n with
    | zero => exact hcl
    | succ n ih => exact fun d => step_clean (hE n).links (hE n).alone _ (hto n) d (ih d)
  have hA := fun n => after_queues (E := E) (clk := clk) (ops := ops) (Nat.zero_le n) ha
  choose ops' g1 g2 g3 g4 using fun n => mirror_turn (E := E) (clk := clk) (hE n).links (hA n) (hC n) (ops n)
  have hm : ∀ n, (τ n).mirror .spec E clk q a = Sys.after (E a.ty) a.name Impl.spec.B (clk q) (t.mirror .spec E clk q a) ops' n := by
    intro n
    induction n with
    | zero => rfl
    | succ n ih =>
      show ((τ n).step E SpecB clk (ops n)).mirror .spec E clk q a = (Sys.step _ _ _ _ (Sys.after _ _ _ _ _ _ n) (ops' n)).1
      rw [← ih]
      exact g1 n
  have hS := fun n => mirror_snap (hE n).alone (hA n)
  refine ⟨ops', hm, g4, ⟨fun n => ?_, fun n => ?_, fun n => ?_, fun n hn => ?_, fun m => ?_, ?_⟩⟩
  · exact NoTouch.noSubmit (v := ((τ n).snap .spec E q a)) (g3 n)
  · exact NoTouch.noCancel (v := ((τ n).snap .spec E q a)) (g3 n)
  · rw [← hm n]
    cases hop : ops' n with
    | enqueue j c => exact fun e => absurd e (by have := g3 n; rw [hop] at this; exact this)
    | finish i x =>
      intro orig job ht hid
      rw [← (hS n).2.1] at ht
      exact H.code n i x orig job (g4 n i x hop) ht hid
    | _ => trivial
  · rw [← hm n] at hn
    have e1 : ∀ n, (Impl.spec.snap (E a.ty) a.name ((τ n).mirror .spec E clk q a)).inFlight = ((τ n).snap .spec E q a).inFlight := by
      intro n
      unfold Snap.inFlight
      rw [(hS n).2.1]
    rw [e1] at hn
    obtain ⟨m, h2, h3⟩ := H.ends n hn
    exact ⟨m, h2, by rw [← hm m, e1]; exact h3⟩
  · obtain ⟨n, h2, h3, h4, h5⟩ := H.ticks m
    obtain ⟨e1, -, e3, e4, -⟩ := hS n
    refine ⟨n, h2, (g2 n).1 h3, ?_, ?_⟩
    · rw [← hm n]; exact e4.symm.trans h4
    · rw [← hm n, ← snap_free e1 e3]; exact h5
  · rcases H.short with h | h
    · refine .inl fun n hn => ?_
      rw [← hm n, ← (hS n).1]
      exact h n ((g2 n).2 hn)
    · refine .inr fun m => ?_
      obtain ⟨n, h2, h3, h4⟩ := h m
      obtain ⟨e1, -, e3, e4, -⟩ := hS (n + 1)
      refine ⟨n, h2, (g2 n).1 h3, ?_, ?_, ?_⟩
      · rw [← hm (n + 1)]; exact e4.symm.trans h4.alive
      · rw [← hm (n + 1), ← snap_free e1 e3]; exact h4.room
      · rw [← hm (n + 1), ← e1]; exact h4.small

/-- Nobody waits for ever. -/
theorem no_stand {st lf : Nat → Nat} (h1 : ∀ n, st (n + 1) ≤ st n) (h2 : ∀ m, ∃ n, m ≤ n ∧ (2 ≤ st n → st (n + 1) < st n))
    (h3 : ∀ n, st n = 1 → st (n + 1) = 1 → lf (n + 1) ≤ lf n) (h4 : ∀ m, ∃ n, m ≤ n ∧ (st n = 1 → st (n + 1) = 1 → lf (n + 1) < lf n))
    (h5 : ∀ m, ∃ n, m ≤ n ∧ st n ≠ 0) : False := by
  have anti : ∀ m n, m ≤ n → st n ≤ st m := by
    intro m n h
    induction h with
    | refl => exact Nat.le_refl _
    | step _ ih => exact Nat.le_trans (h1 _) ih
  have low : ∀ d m, st m ≤ d + 1 → ∃ n, m ≤ n ∧ st n ≤ 1 := by
    intro d
    induction d with
    | zero => exact fun m h => ⟨m, Nat.le_refl _, h⟩
    | succ d ih =>
      intro m h
      obtain ⟨n, hn, h⟩ := h2 m
      have := anti m n hn
      by_cases h6 : 2 ≤ st n
      · have := h h6
        obtain ⟨n', hn', h'⟩ := ih (n + 1) (by omega)
        exact ⟨n', by omega, h'⟩
      · exact ⟨n, hn, by omega⟩
  obtain ⟨M, -, hM⟩ := low (st 0) 0 (by omega)
  have one : ∀ n, M ≤ n → st n = 1 := by
    intro n hn
    have := anti M n hn
    obtain ⟨n', hn', h⟩ := h5 n
    have := anti n n' hn'
    omega
  have none : ∀ d m, M ≤ m → lf m ≤ d → False := by
    intro d
    induction d with
    | zero =>
      intro m hm h
      obtain ⟨n, hn, h'⟩ := h4 m
      have := h' (one n (by omega)) (one (n + 1) (by omega))
      have mono : ∀ i, lf (m + i) ≤ lf m := by
        intro i
        induction i with
        | zero => exact Nat.le_refl _
        | succ i ih => exact Nat.le_trans (h3 (m + i) (one _ (by omega)) (one _ (by omega))) ih
      have := mono (n - m)
      rw [show m + (n - m) = n by omega] at this
      omega
    | succ d ih =>
      intro m hm h
      obtain ⟨n, hn, h'⟩ := h4 m
      have := h' (one n (by omega)) (one (n + 1) (by omega))
      have mono : ∀ i, lf (m + i) ≤ lf m := by
        intro i
        induction i with
        | zero => exact Nat.le_refl _
        | succ i ih => exact Nat.le_trans (h3 (m + i) (one _ (by omega)) (one _ (by omega))) ih
      have := mono (n - m)
      rw [show m + (n - m) = n by omega] at this
      exact ih (n + 1) (by omega) (by omega)
  exact none _ M (Nat.le_refl _) (Nat.le_refl _)

variable {N : Nat → Str}

theorem orderly_after (hN : ∀ a b, N a = N b → a = b) {G : Engine} (ho : t.hub.Orderly N G) (hp : ∀ n, (ops n).Polite N (τ n)) (n : Nat) :
    ∃ G', (τ n).hub.Orderly N G' := by
  induction n with
  | zero => exact ⟨G, ho⟩
  | succ n ih =>
    obtain ⟨G', ho'⟩ := ih
    exact orderly_step hN ho' _ (hp n)

/-- A client that looks for the work queue finds it and sends its message. -/
theorem posted_after (hN : ∀ a b, N a = N b → a = b) {G : Engine} (hl : Links t) (ho : t.hub.Orderly N G) (hp : ∀ n, (ops n).Polite N (τ n))
    {c ty : Nat} (hm1 : ∀ m, ∃ n x, m ≤ n ∧ ops n = .client c x) (hm2 : ∀ m, ∃ n, m ≤ n ∧ ops n = .engine 0)
    (hm3 : ∀ m, ∃ n, m ≤ n ∧ ops n = .post c) {n0 : Nat} {nm : Str} {job : Job D} {cfg : EnqueueConfig} {op : Op D O}
    (ha : (τ n0).Asks c (.submit ty nm job cfg) op) :
    ∃ n, n0 ≤ n ∧ ∃ q, (τ n).users c = .posted (.submit ty nm job cfg) op false q := by
  by_contra hcon
  choose G hG using fun n => orderly_after (E := E) (clk := clk) hN ho hp n
  have hL : ∀ n, Links (τ n) := by
    intro n
    induction n with
    | zero => exact hl
    | succ n ih => exact links_step ih _
  have key := fun n (ha : (τ n).Asks c (.submit ty nm job cfg) op) => asks_key (E := E) (clk := clk) hN (hL n) (hG n) (ops n) (hp n) ha
  have hA : ∀ i, (τ (n0 + i)).Asks c (.submit ty nm job cfg) op := by
    intro i
    induction i with
    | zero => exact ha
    | succ i ih =>
      rcases key _ ih with ⟨-, q, h⟩ | ⟨h, -⟩
      · exact absurd ⟨n0 + i + 1, by omega, q, h⟩ hcon
      · exact h
  have key : ∀ i, Hub.stage ((τ (n0 + (i + 1))).hub.clients c) ≤ Hub.stage ((τ (n0 + i)).hub.clients c) ∧
      ((∃ x, ops (n0 + i) = .client c x) → 2 ≤ Hub.stage ((τ (n0 + i)).hub.clients c) →
        Hub.stage ((τ (n0 + (i + 1))).hub.clients c) < Hub.stage ((τ (n0 + i)).hub.clients c)) ∧
      (Hub.stage ((τ (n0 + i)).hub.clients c) = 1 → Hub.stage ((τ (n0 + (i + 1))).hub.clients c) = 1 →
        Hub.left c (G (n0 + (i + 1))) ≤ Hub.left c (G (n0 + i)) ∧ (ops (n0 + i) = .engine 0 → Hub.left c (G (n0 + (i + 1))) < Hub.left c (G (n0 + i)))) ∧
      (ops (n0 + i) = .post c → Hub.stage ((τ (n0 + i)).hub.clients c) ≠ 0) := by
    intro i
    rcases key _ (hA i) with ⟨-, q, h⟩ | ⟨-, G', g1, g2⟩
    · exact absurd ⟨n0 + i + 1, by omega, q, h⟩ hcon
    · have : G' = G (n0 + (i + 1)) := by
        have h1 := g1.engines
        have h2 := (hG (n0 + i + 1)).engines
        have h2 : ((τ (n0 + i)).step E SpecB clk (ops (n0 + i))).hub.engines = _ := h2
        rw [h1] at h2
        exact (by simpa using h2 : G' = G (n0 + i + 1))
      rw [this] at g2
      exact g2
  refine no_stand (st := fun i => Hub.stage ((τ (n0 + i)).hub.clients c)) (lf := fun i => Hub.left c (G (n0 + i))) (fun i => (key i).1)
    (fun m => ?_) (fun i h1 h2 => ((key i).2.2.1 h1 h2).1) (fun m => ?_) (fun m => ?_)
  · obtain ⟨n, x, h1, h2⟩ := hm1 (n0 + m)
    obtain ⟨i, rfl⟩ := Nat.exists_eq_add_of_le (show n0 ≤ n by omega)
    exact ⟨i, by omega, (key i).2.1 ⟨x, h2⟩⟩
  · obtain ⟨n, h1, h2⟩ := hm2 (n0 + m)
    obtain ⟨i, rfl⟩ := Nat.exists_eq_add_of_le (show n0 ≤ n by omega)
    exact ⟨i, by omega, fun a b => ((key i).2.2.1 a b).2 h2⟩
  · obtain ⟨n, h1, h2⟩ := hm3 (n0 + m)
    obtain ⟨i, rfl⟩ := Nat.exists_eq_add_of_le (show n0 ≤ n by omega)
    exact ⟨i, by omega, (key i).2.2.2 h2⟩

/-- A message in a mailbox is handled. -/
theorem handled_after (hl : Links t) {c ty q : Nat} {a : QueueActor} (hm : Site.Moves E clk c ty t ops) (hty : a.ty = ty) {d : Nat} {op : Op D O} :
    ∀ (i n : Nat), (τ n).hub.queues[q]? = some a → ((τ n).boxes q).mailbox[i]? = some (d, op) →
      ∃ m, n ≤ m ∧ ∃ r, (τ (m + 1)).trace = (τ m).trace ++ [.turn q (some d) op r] := by
  have hL : ∀ n, Links (τ n) := by
    intro n
    induction n with
    | zero => exact hl
    | succ n ih => exact links_step ih _
  intro i
  induction i using Nat.strongRecOn with
  | ind i ih =>
    intro n ha hi
    by_contra hcon
    have stay : ∀ k, ((τ (n + k)).boxes q).mailbox[i]? = some (d, op) := by
      intro k
      induction k with
      | zero => exact hi
      | succ k ihk =>
        rcases waits_step (E := E) (clk := clk) (hL (n + k)) (after_queues (by omega) ha) ihk (ops (n + k)) with ⟨i', h1, -, h3⟩ | ⟨r, h⟩
        · rcases Nat.lt_or_eq_of_le h1 with h1 | rfl
          · obtain ⟨m, g1, g2⟩ := ih i' h1 (n + k + 1) (after_queues (by omega) ha) h3
            exact absurd ⟨m, by omega, g2⟩ hcon
          · exact h3
        · exact absurd ⟨n + k, by omega, r, h⟩ hcon
    obtain ⟨m, g1, g2⟩ := hm.takes n q a ha hty (by intro h; rw [h] at hi; cases hi)
    obtain ⟨k, rfl⟩ := Nat.exists_eq_add_of_le g1
    rcases waits_step (E := E) (clk := clk) (hL (n + k)) (after_queues (by omega) ha) (stay k) (ops (n + k)) with ⟨i', h1, h2, h3⟩ | ⟨r, h⟩
    · obtain ⟨m, k1, k2⟩ := ih i' (h2 g2) (n + k + 1) (after_queues (by omega) ha) h3
      exact absurd ⟨m, by omega, k2⟩ hcon
    · exact absurd ⟨n + k, by omega, r, h⟩ hcon

/-- The work queue of a client that has sent its message. -/
theorem posted_queue {B : Backend} {t : Site D O B} {G : Engine} (hl : Links t) (ho : t.hub.Orderly N G) {c ty q : Nat} {nm : Str} {job : Job D} {cfg : EnqueueConfig} {op : Op D O}
    (hq : t.users c = .posted (.submit ty nm job cfg) op false q) : ∃ a, t.hub.queues[q]? = some a ∧ a.ty = ty ∧ a.name = N ty := by
  have h1 := hl.users c
  rw [hq] at h1
  have h2 : t.hub.clients c = .done (.submit ty nm) (.answer q) := by
    obtain ⟨g1, g2 | ⟨ty', n', g2⟩⟩ := h1
    · exact g2
    · rw [g2] at g1
      obtain ⟨-, g1, -⟩ := g1
      cases g1
  have h3 := ho.client c
  rw [h2] at h3
  obtain ⟨q', h4, h5⟩ := h3
  cases h4
  obtain ⟨a, h6, h7⟩ := hl.typed.types ty q h5
  exact ⟨a, h6, h7, by rw [ho.names a (List.mem_of_getElem? h6), h7]⟩

theorem EachRun.shift {P : Executable D O → Job D → Prop} {q : Nat} {a : QueueActor} (h : t.EachRun .spec E clk k q a ops P) (n : Nat) :
    (τ n).EachRun .spec E clk k q a (fun i => ops (n + i)) P := by
  intro m i x orig job h1 h2
  refine h (n + m) i x orig job h1 ?_
  have := after_add (E := E) (clk := clk) (t := t) (ops := ops) n m
  exact (congrArg (fun s : Site D O SpecB => (s.snap .spec E q a).tasks[i]?) this).trans h2

theorem Serves.shift {q : Nat} {a : QueueActor} (h : Site.Serves .spec E clk k q a t ops) (n : Nat) :
    Site.Serves .spec E clk k q a (τ n) (fun i => ops (n + i)) := by
  have e := fun m => after_add (E := E) (clk := clk) (t := t) (ops := ops) n m
  have e' : ∀ m, Site.after E Impl.spec.B clk (τ n) (fun i => ops (n + i)) m = τ (n + m) := fun m => (e m).symm
  refine ⟨EachRun.shift h.code n, fun m hm => ?_, fun m => ?_, ?_⟩
  · rw [e'] at hm
    obtain ⟨m', h1, h2⟩ := h.ends (n + m) hm
    obtain ⟨i, rfl⟩ := Nat.exists_eq_add_of_le (show n ≤ m' by omega)
    exact ⟨i, by omega, by rw [e']; exact h2⟩
  · obtain ⟨m', h1, h2, h3, h4⟩ := h.ticks (n + m)
    obtain ⟨i, rfl⟩ := Nat.exists_eq_add_of_le (show n ≤ m' by omega)
    exact ⟨i, by omega, h2, by rw [e']; exact h3, by rw [e']; exact h4⟩
  · rcases h.short with g | g
    · refine .inl fun m hm => ?_
      rw [e']
      exact g (n + m) hm
    · refine .inr fun m => ?_
      obtain ⟨m', h1, h2, h3⟩ := g (n + m)
      obtain ⟨i, rfl⟩ := Nat.exists_eq_add_of_le (show n ≤ m' by omega)
      exact ⟨i, by omega, h2, by rw [e']; exact h3⟩

/-- The job of a submission comes to a work queue, which alone has an endless history that serves it. `Z q n` is whatever is known of
the moment at which the message has been handled. -/
theorem served (hN : ∀ a b, N a = N b → a = b) (L : ∀ ty, (E ty).Lawful) {G : Engine} (h : Endless E clk kind t) (ho : t.hub.Orderly N G)
    (hp : ∀ n, (ops n).Polite N (τ n)) (hon : ∀ n c req, ops n = .begin c req → req.On kind) {n0 c ty : Nat} {nm : Str} {job : Job D}
    {cfg : EnqueueConfig} (hcl : ∀ d, Clean job.id (t.users d)) (hqt : Quiet job.id t.trace)
    (hb : ops n0 = .begin c (.submit ty nm job cfg)) (hfree : (τ n0).users c = .free ∨ ∃ req r, (τ n0).users c = .done req r)
    (hto : ∀ n d req, n ≠ n0 → ops n = .begin d req → ¬ req.Touches job.id)
    (hm1 : ∀ m, ∃ n x, m ≤ n ∧ ops n = .client c x) (hm2 : ∀ m, ∃ n, m ≤ n ∧ ops n = .engine 0) (hm3 : ∀ m, ∃ n, m ≤ n ∧ ops n = .post c)
    {Z : Nat → Nat → Prop}
    (hh : ∀ (i n q : Nat) (a : QueueActor) (d : Nat) (op : Op D O), (τ n).hub.queues[q]? = some a → a.ty = ty → ((τ n).boxes q).mailbox[i]? = some (d, op) →
      ∃ m, n ≤ m ∧ (∃ r, (τ (m + 1)).trace = (τ m).trace ++ [.turn q (some d) op r]) ∧ Z q (m + 1))
    (hs : ∀ n q a, (τ n).hub.queues[q]? = some a → a.ty = ty → Site.Serves .spec E clk job.id q a t ops) (henc : (E ty).Encodable job) :
    ∃ n q a ops' ms, n0 < n ∧ Z q n ∧ (τ n).hub.queues[q]? = some a ∧ a.ty = ty ∧ a.name = nm ∧
      Reach (O := O) .spec (E a.ty) a.name (clk q) (Orderly job.id) ((τ n).mirror .spec E clk q a) ∧
      (Impl.spec.snap (E a.ty) a.name ((τ n).mirror .spec E clk q a)).job job.id = some ((job.asQueued ms).norm (L a.ty).normD) ∧
      (Impl.spec.snap (E a.ty) a.name ((τ n).mirror .spec E clk q a)).runs job.id = [] ∧
      (∀ m, (τ (n + m)).mirror .spec E clk q a = Sys.after (E a.ty) a.name Impl.spec.B (clk q) ((τ n).mirror .spec E clk q a) ops' m) ∧
      (∀ m i x, ops' m = .finish i x → ops (n + m) = .turn q (.finish i x)) ∧
      Sys.Serves .spec (E a.ty) a.name (clk q) job.id ((τ n).mirror .spec E clk q a) ops' ∧
      ∀ m, Endless E clk kind (τ m) := by
  have hO := fun n => orderly_after (E := E) (clk := clk) hN ho hp n
  have h1 : ∀ n, (τ n).hub.engines.length ≤ 1 := by
    intro n
    obtain ⟨G', hG'⟩ := hO n
    rw [hG'.engines]; simp
  have hE := fun n => h.after L hon h1 n
  -- before the call
  have hcalm : ∀ n, n ≤ n0 → (∀ d, Clean job.id ((τ n).users d)) ∧ Quiet job.id (τ n).trace := by
    intro n
    induction n with
    | zero => exact fun _ => ⟨hcl, hqt⟩
    | succ n ih =>
      intro hn
      obtain ⟨g1, g2⟩ := ih (by omega)
      exact calm_step (hE n).links (hE n).alone _ (fun d req e => hto n d req (by omega) e) g1 g2
  -- after the call
  have hT : ∀ i, Track c job cfg (τ (n0 + 1 + i)) := by
    intro i
    induction i with
    | zero =>
      show Track c job cfg ((τ n0).step E SpecB clk (ops n0))
      rw [hb]
      exact track_begin (hcalm n0 (Nat.le_refl _)).1 (hcalm n0 (Nat.le_refl _)).2
    | succ i ih => exact track_step (hE _).links (hE _).alone _ (fun d req e => hto (n0 + 1 + i) d req (by omega) e) ih
  have hask : (τ (n0 + 1)).Asks c (.submit ty nm job cfg) (.enqueue job cfg) := by
    show ((τ n0).step E SpecB clk (ops n0)).users c = _
    rw [hb]
    show ((τ n0).begin SpecB c _).users c = _
    unfold Site.begin
    rcases hfree with h | ⟨_, _, h⟩ <;> rw [h] <;> exact upd_same _ _ _
  have hnm : nm = N ty := by
    obtain ⟨G', hG'⟩ := hO (n0 + 1)
    have hc := hG'.client c
    have hu := (hE (n0 + 1)).links.users c
    rw [show (τ (n0 + 1)).users c = _ from hask] at hu
    have hc2 : (τ (n0 + 1)).hub.clients c = .begun (.submit ty nm) := by
      show ((τ n0).step E SpecB clk (ops n0)).hub.clients c = _
      rw [hb]
      show ((τ n0).begin SpecB c _).hub.clients c = _
      have := (hE n0).links.users c
      unfold Site.begin
      rcases hfree with h | ⟨_, _, h⟩
      · rw [h] at this ⊢
        show ((τ n0).hub.begin c _).clients c = _
        unfold Hub.begin
        rw [show (τ n0).hub.clients c = .idle from this]; simp [Hub.go_clients]; rfl
      · rw [h] at this ⊢
        obtain ⟨call, r, h2⟩ := this
        show ((τ n0).hub.begin c _).clients c = _
        unfold Hub.begin
        rw [h2]; simp [Hub.go_clients]; rfl
    rw [hc2] at hc
    exact hc
  obtain ⟨n1, hn1, q, hq⟩ := posted_after (ty := ty) hN h.links ho hp hm1 hm2 hm3 hask
  obtain ⟨G1, hG1⟩ := hO n1
  obtain ⟨a, ha, hty, han⟩ := posted_queue (hE n1).links hG1 hq
  have hmail : (c, .enqueue job cfg) ∈ ((τ n1).boxes q).mailbox := ((hE n1).links.mail q c _).2 ⟨_, _, hq⟩
  obtain ⟨i, hi⟩ := List.mem_iff_getElem?.1 hmail
  obtain ⟨n2, hn2, ⟨r, htr⟩, hz⟩ := hh i n1 q a _ _ ha hty hi
  have ha1 := after_queues (E := E) (clk := clk) (ops := ops) hn2 ha
  have hl1 := (hE n2).links
  have hT1 : Track c job cfg (τ n2) := by
    obtain ⟨i, rfl⟩ := Nat.exists_eq_add_of_le (show n0 + 1 ≤ n2 by omega)
    exact hT i
  have htr : ((τ n2).step E SpecB clk (ops n2)).trace = (τ n2).trace ++ [.turn q (some c) (.enqueue job cfg) r] := htr
  obtain ⟨l, g1, g2, g3⟩ := step_touch (E := E) (clk := clk) hl1 job.id (ops n2)
  rw [htr] at g1
  have g1 := List.append_cancel_left g1
  obtain ⟨d, req, again, hwho, hu, hu'⟩ := g3 q (some c) (.enqueue job cfg) r (by rw [← g1]; exact List.mem_singleton.2 rfl) rfl
  cases hwho
  obtain ⟨hquiet, ty', nm', hbd⟩ := hT1.state.resolve_right (fun hc => by
    have := hc.1
    rw [hu] at this
    exact this.1 rfl)
  have hreq : req = .submit ty' nm' job cfg := by
    rcases hbd with hb | ⟨q', hb⟩ <;> rw [hu] at hb <;> cases hb
    rfl
  subst hreq
  have hmir : (τ (n2 + 1)).mirror .spec E clk q a =
      (Sys.step (E a.ty) a.name Impl.spec.B (clk q) ((τ n2).mirror .spec E clk q a) (.enqueue job cfg : Op D O)).1 := by
    rcases mirror_step (E := E) (clk := clk) hl1 ha1 (ops n2) with ⟨-, -, e⟩ | ⟨who, op, r', e1, e2, e⟩
    · rw [htr, turnsOf_append] at e
      exact absurd (congrArg List.length e) (by simp [turnsOf, SiteEvent.at])
    · rw [htr] at e1
      have e1 := List.append_cancel_left e1
      simp only [List.cons.injEq, SiteEvent.turn.injEq, true_and, and_true] at e1
      obtain ⟨-, rfl, -⟩ := e1
      exact e
  have ha2 : (τ (n2 + 1)).hub.queues[q]? = some a := after_queues (Nat.le_succ n2) ha1
  have hcl2 : ∀ d, Clean job.id ((τ (n2 + 1)).users d) := by
    intro d
    by_cases e : d = c
    · subst e
      rw [show (τ (n2 + 1)).users d = _ from hu']
      rintro - _ _ _ _ _ h
      cases h
    · exact step_clean hl1 (hE n2).alone (ops n2) (fun d req e => hto n2 d req (by omega) e) d (hT1.others d e)
  obtain ⟨ops', k1, k2, k3⟩ := Serves.mirror (k := job.id) L (hE (n2 + 1)) (ops := fun i => ops (n2 + 1 + i)) (fun n c req e => hon _ c req e)
    (fun n => by rw [← after_add]; exact h1 _) (fun n d req e => hto _ d req (by omega) e) hcl2 ha2 ((hs _ q a ha hty).shift (n2 + 1))
  have halive : ((τ n2).mirror .spec E clk q a).alive = true := by
    by_contra hd
    have hd : ((τ n2).mirror .spec E clk q a).alive = false := by simpa using hd
    have hd2 : ∀ m, (Sys.after (E a.ty) a.name Impl.spec.B (clk q) ((τ (n2 + 1)).mirror .spec E clk q a) ops' m).alive = false := by
      intro m
      induction m with
      | zero =>
        show ((τ (n2 + 1)).mirror .spec E clk q a).alive = false
        rw [hmir, dead_step (b := .spec) hd]; exact hd
      | succ m ih =>
        show (Sys.step _ _ _ _ (Sys.after _ _ _ _ _ _ m) (ops' m)).1.alive = false
        rw [dead_step (b := .spec) ih]; exact ih
    obtain ⟨m, -, -, h3, -⟩ := k3.ticks 0
    rw [hd2 m] at h3
    cases h3
  obtain ⟨s1, s0, s2, -, -⟩ := submitted (b := .spec) (clk := clk q) (name := a.name) (k := job.id) (L a.ty)
    ((quiet_reach (b := .spec) q a hquiet).mono fun _ _ h => h.noSubmit) halive cfg rfl
  have s2 := s2 (hty ▸ henc)
  rw [← hmir] at s0 s1 s2
  refine ⟨n2 + 1, q, a, ops', _, by omega, hz, ha2, hty, han.trans hnm.symm, s1, s2, s0, fun m => ?_, k2, k3, hE⟩
  rw [← k1 m, ← after_add]

end
end Site
end AJ
