import Verif.Proofs.SiteSend
import Verif.Proofs.WeaveLive

/-! # From the call of a submission to the mailbox of the work queue, with turns that interleave -/

namespace AJ
namespace Weave
variable {D O : Type} {B : Backend} {E : Nat → Env D} {clk : Nat → Nat → Time} {N : Nat → Str} {f : Weave D O B}

/-- Steps of turns leave the registry, and the clients that ask it, as they are. -/
theorem quiet_step (h : Tidy f) (o : WeaveOp D O) (ho : ∀ o', o = .site o' → o'.plain = false) :
    (f.step E B clk o).site.hub = f.site.hub ∧
      ∀ c req op again, f.site.users c = .asking req op again → (f.step E B clk o).site.users c = f.site.users c := by
  cases o with
  | go q =>
    show (f.go B clk q).site.hub = _ ∧ ∀ c req op again, _ → (f.go B clk q).site.users c = _
    rcases go_cases (B := B) (clk := clk) (f := f) (q := q) with e | ⟨x, a, hx, ha, ⟨p, r, -, e⟩ | ⟨-, e⟩⟩ <;> rw [e]
    · exact ⟨rfl, fun _ _ _ _ _ => rfl⟩
    · obtain ⟨h1, -, -, -, h5, h6⟩ := leave_site h hx p r
      refine ⟨h1, fun c req op again hu => ?_⟩
      cases hw : x.who with
      | none => rw [← hw, (h5 hw).1]
      | some w =>
        obtain ⟨d, i⟩ := w
        obtain ⟨req', again', h7, h8, -⟩ := h6 d i hw
        rw [← hw, h8]
        refine upd_ne _ _ ?_
        rintro rfl
        rw [hu] at h7; cases h7
    · exact ⟨rfl, fun _ _ _ _ _ => rfl⟩
  | site o =>
    have := ho o rfl
    cases o with
    | handle q i =>
      show (f.handle E B q i).site.hub = _ ∧ ∀ c req op again, _ → (f.handle E B q i).site.users c = _
      rcases handle_cases (E := E) h (q := q) (i := i) with e | ⟨a, c, op, i', -, -, -, -, e⟩ <;> rw [e] <;> exact ⟨rfl, fun _ _ _ _ _ => rfl⟩
    | turn q op =>
      show (f.turn E B q op).site.hub = _ ∧ ∀ c req op again, _ → (f.turn E B q _).site.users c = _
      rcases turn_cases (E := E) (f := f) (q := q) (op := op) with e | ⟨a, -, -, -, e⟩ <;> rw [e] <;> exact ⟨rfl, fun _ _ _ _ _ => rfl⟩
    | _ => cases this

/-- A step is one of the process or one of a turn. -/
theorem plain_or (o : WeaveOp D O) : (∃ o', o = .site o' ∧ o'.plain = true) ∨ ∀ o', o = .site o' → o'.plain = false := by
  cases o with
  | go q => exact .inr fun _ h => by cases h
  | site o =>
    cases h : o.plain with
    | true => exact .inl ⟨o, rfl, h⟩
    | false => exact .inr fun o' e => by cases e; exact h

theorem orderly_step (hN : ∀ a b, N a = N b → a = b) (ht : Tidy f) {G : Engine} (ho : f.site.hub.Orderly N G) (o : WeaveOp D O)
    (hp : ∀ o', o = .site o' → o'.Polite N f.site) : ∃ G', (f.step E B clk o).site.hub.Orderly N G' := by
  rcases plain_or o with ⟨o', rfl, h⟩ | h
  · rw [step_plain h]
    exact Site.orderly_step hN ho o' (hp o' rfl)
  · rw [(quiet_step ht o h).1]
    exact ⟨G, ho⟩

theorem PoliteRun.head {o : WeaveOp D O} {ops : List (WeaveOp D O)} (h : f.PoliteRun E clk N (o :: ops)) : ∀ o', o = .site o' → o'.Polite N f.site := by
  rintro o' rfl
  exact h.1

theorem PoliteRun.append {xs ys : List (WeaveOp D O)} (h : f.PoliteRun E clk N (xs ++ ys)) :
    f.PoliteRun E clk N xs ∧ (f.run E B clk xs).PoliteRun E clk N ys := by
  induction xs generalizing f with
  | nil => exact ⟨trivial, h⟩
  | cons o xs ih => exact ⟨⟨h.1, (ih h.2).1⟩, (ih h.2).2⟩

theorem orderly_run (hN : ∀ a b, N a = N b → a = b) (ht : Tidy f) {G : Engine} (ho : f.site.hub.Orderly N G) (ops : List (WeaveOp D O))
    (hp : f.PoliteRun E clk N ops) : ∃ G', (f.run E B clk ops).site.hub.Orderly N G' := by
  induction ops generalizing f G with
  | nil => exact ⟨G, ho⟩
  | cons o ops ih =>
    obtain ⟨G', ho'⟩ := orderly_step (E := E) (clk := clk) hN ht ho o hp.head
    exact ih (tidy_step ht o) ho' hp.2

theorem run_queues (ht : Tidy f) (ops : List (WeaveOp D O)) {q : Nat} {a : QueueActor} (ha : f.site.hub.queues[q]? = some a) :
    (f.run E B clk ops).site.hub.queues[q]? = some a := by
  induction ops generalizing f with
  | nil => exact ha
  | cons o ops ih =>
    refine ih (f := f.step E B clk o) (tidy_step ht o) ?_
    rcases plain_or o with ⟨o', rfl, h⟩ | h
    · rw [step_plain h]
      exact Site.run_queues f.site [o'] ha
    · rw [(quiet_step ht o h).1]; exact ha

theorem looks_append (q : Nat) (xs ys : List (WeaveOp D O)) :
    f.looks E clk q (xs ++ ys) = f.looks E clk q xs + (f.run E B clk xs).looks E clk q ys := by
  induction xs generalizing f with
  | nil => exact (Nat.zero_add _).symm
  | cons o xs ih =>
    show _ + (f.step E B clk o).looks E clk q (xs ++ ys) = _ + (f.step E B clk o).looks E clk q xs + _
    rw [ih, Nat.add_assoc]
    rfl

/-- Steps that are about no turn are those of `Site`. -/
theorem run_plain (f : Weave D O B) (ops : List (SiteOp D O)) (h : ∀ o ∈ ops, o.plain = true) :
    f.run E B clk (ops.map .site) = { f with site := f.site.run E B clk ops } := by
  induction ops generalizing f with
  | nil => rfl
  | cons o ops ih =>
    show (f.step E B clk (.site o)).run E B clk (ops.map .site) = _
    rw [step_plain (h o (List.mem_cons_self ..)), ih _ fun o' hm => h o' (List.mem_cons_of_mem _ hm)]
    rfl

theorem Few.tail {m : Nat} {o : WeaveOp D O} {ops : List (WeaveOp D O)} (h : f.Few E clk m (o :: ops)) : (f.step E B clk o).Few E clk m ops :=
  fun p hp => h (o :: p) ((List.prefix_cons_inj o).2 hp)

/-- A submission reaches the mailbox of a work queue. -/
theorem sent (hN : ∀ a b, N a = N b → a = b) {c ty : Nat} {n : Str} {job : Job D} {cfg : EnqueueConfig} {op : Op D O} {m : Nat} (ops : List (WeaveOp D O)) :
    ∀ {f : Weave D O B} {G : Engine} (xs : List Bool) (k : Nat), Tidy f → Site.OnWay N c ty n job cfg op m xs k G f.site → f.PoliteRun E clk N ops →
      f.Few E clk m ops → ((Site.road c xs k).map .site).Sublist ops →
      ∃ p, p <+: ops ∧ ∃ q, (f.run E B clk p).site.users c = .posted (.submit ty n job cfg) op false q := by
  induction ops with
  | nil =>
    intro f G xs k _ _ _ _ hsub
    have := List.eq_nil_of_sublist_nil hsub
    simp [Site.road] at this
  | cons o ops ih =>
    intro f G xs k ht h hp hf hsub
    have ht' := tidy_step (E := E) (clk := clk) ht o
    have go : ∀ (G' : Engine) (xs' : List Bool) (k' : Nat), Site.OnWay N c ty n job cfg op m xs' k' G' (f.step E B clk o).site →
        ((Site.road c xs' k').map .site).Sublist ops →
        ∃ p, p <+: o :: ops ∧ ∃ q, (f.run E B clk p).site.users c = .posted (.submit ty n job cfg) op false q := by
      intro G' xs' k' g h
      obtain ⟨p, hp1, q, hq⟩ := ih xs' k' ht' g hp.2 hf.tail h
      exact ⟨o :: p, (List.prefix_cons_inj o).2 hp1, q, hq⟩
    rcases plain_or o with ⟨o', rfl, hpl⟩ | hpl
    · have e := step_plain (E := E) (clk := clk) (f := f) hpl
      rcases h.step (E := E) (clk := clk) hN o' (hp.head o' rfl) (by
        have := hf [.site o'] ⟨ops, rfl⟩
        change ∀ e ∈ (f.step E B clk (.site o')).site.hub.engines, _ at this
        rw [e] at this
        exact this) with ⟨rfl, q, hq⟩ | ⟨G', g0, g1, g2, g3⟩
      · exact ⟨[.site (.post c)], ⟨ops, rfl⟩, q, hq⟩
      have e' : (f.step E B clk (.site o')).site = f.site.step E B clk o' := by rw [e]
      rw [← e'] at g0 g1 g2
      cases xs with
      | cons x xs' =>
        rcases List.cons_sublist_cons'.1 hsub with hsub | ⟨e, hs'⟩
        · exact go _ _ _ g0 hsub
        · cases e
          exact go _ xs' k (g1 x xs' rfl rfl) hs'
      | nil =>
        cases k with
        | succ k' =>
          rcases List.cons_sublist_cons'.1 hsub with hsub | ⟨e, hs'⟩
          · exact go _ _ _ g0 hsub
          · cases e
            exact go _ [] k' (g2 k' rfl rfl rfl) hs'
        | zero =>
          rcases List.cons_sublist_cons'.1 hsub with hsub | ⟨e, -⟩
          · exact go _ _ _ g0 hsub
          · cases e
            exact absurd rfl (g3 rfl rfl)
    · obtain ⟨e1, e2⟩ := quiet_step (E := E) (clk := clk) ht o hpl
      have h' : Site.OnWay N c ty n job cfg op m xs k G (f.step E B clk o).site :=
        ⟨ht'.links, by rw [e1]; exact h.orderly, (e2 c _ _ _ h.asks).trans h.asks, by rw [e1]; exact h.stage, by rw [e1]; exact h.near, by rw [e1]; exact h.far⟩
      refine go _ _ _ h' ?_
      have hne : ∀ r : List (WeaveOp D O), (∀ y ∈ r, ∃ o', y = .site o' ∧ o'.plain = true) → r.Sublist (o :: ops) → r.Sublist ops := by
        intro r hr hs
        cases r with
        | nil => exact List.nil_sublist _
        | cons y r =>
          rcases List.cons_sublist_cons'.1 hs with hs | ⟨rfl, -⟩
          · exact hs
          · obtain ⟨o', e, h⟩ := hr _ (List.mem_cons_self ..)
            rw [hpl o' e] at h; cases h
      refine hne _ (fun y hy => ?_) hsub
      obtain ⟨o', h1, rfl⟩ := List.mem_map.1 hy
      refine ⟨o', rfl, ?_⟩
      simp only [Site.road, List.mem_append, List.mem_map, List.mem_replicate, List.mem_singleton] at h1
      rcases h1 with ⟨_, -, rfl⟩ | ⟨-, rfl⟩ | rfl <;> rfl

end Weave
end AJ
