import Verif.Props.Life
import Verif.Props.Weave

/-! # The requests behind the turns of a work queue of a process -/

namespace AJ
namespace Site
variable {D O : Type} {E : Nat → Env D} {clk : Nat → Nat → Time} {B : Backend}

/-- Calls come from requests that were begun. -/
theorem step_call (t : Site D O B) (o : SiteOp D O) {c : Nat} {req : Req D} (h : .call c req ∈ (t.step E B clk o).trace) :
    .call c req ∈ t.trace ∨ o = .begin c req := by
  have one : ∀ {l : List (SiteEvent D O)} {e : SiteEvent D O}, .call c req ∈ l ++ [e] → .call c req ∈ l ∨ e = .call c req := fun h => by
    rcases List.mem_append.1 h with h | h
    · exact .inl h
    · exact .inr (List.mem_singleton.1 h).symm
  cases o with
  | begin d r =>
    have h : _ ∈ (t.begin B d r).trace := h
    unfold begin at h
    split at h
    · exact (one h).imp_right fun e => by cases e; rfl
    · exact (one h).imp_right fun e => by cases e; rfl
    · exact .inl h
  | client d x =>
    have h : _ ∈ (t.client B d x).trace := h
    unfold client at h
    split at h <;> exact .inl h
  | engine e => exact .inl h
  | post d =>
    have h : _ ∈ (t.post B d).trace := h
    unfold post at h
    split at h
    · split at h
      · exact .inl h
      · split at h <;> exact .inl h
      · exact (one h).imp_right fun e => by cases e
      · exact .inl h
    · exact .inl h
  | handle q i =>
    have h : _ ∈ (t.handle E B clk q i).trace := h
    unfold handle at h
    split at h
    · exact .inl h
    · dsimp only at h
      split at h
      · exact .inl h
      · split at h
        · exact (one h).imp_right fun e => by cases e
        · exact .inl h
  | turn q op =>
    have h : _ ∈ (t.turn E B clk q op).trace := h
    unfold turn at h
    split at h
    · exact .inl h
    · split at h
      · exact (one h).imp_right fun e => by cases e
      · exact .inl h
  | take d =>
    have h : _ ∈ (t.take B d).trace := h
    unfold take at h
    split at h
    · dsimp only at h
      split at h
      · exact .inl h
      · exact (one h).imp_right fun e => by cases e
    · exact (one h).imp_right fun e => by cases e
    · exact .inl h

theorem run_call (t : Site D O B) (ops : List (SiteOp D O)) {c : Nat} {req : Req D} (h : .call c req ∈ (t.run E B clk ops).trace) :
    .call c req ∈ t.trace ∨ .begin c req ∈ ops := by
  induction ops generalizing t with
  | nil => exact .inl h
  | cons o ops ih =>
    rcases ih _ h with h | h
    · rcases step_call t o h with h | rfl
      · exact .inl h
      · exact .inr (List.mem_cons_self ..)
    · exact .inr (List.mem_cons_of_mem _ h)

end Site

section
variable {D O : Type} {qs : List QueueActor} {c : Nat}

private theorem turned_of {req : Req D} {op op' : Op D O} {r r' : Resp D} {e : SiteEvent D O} {q : Nat} {w : Option Nat} (h : Turned qs c req op r e)
    (he : .turn q w op' r' = e) : op' = op ∧ ∃ a, qs[q]? = some a ∧ req.call.ty? = some a.ty := by
  obtain ⟨p, a, h1, h2, h3⟩ := h
  rw [h3] at he
  cases he
  exact ⟨rfl, a, h1, h2⟩

private theorem finished_turn {req : Req D} {evs : List (SiteEvent D O)} {r' : Reply D} (h : Finished qs c req evs r') {q : Nat} {w : Option Nat}
    {op : Op D O} {r : Resp D} (hm : .turn q w op r ∈ evs) : req.Sends op ∧ ∃ a, qs[q]? = some a ∧ req.call.ty? = some a.ty := by
  cases h with
  | served _ op' _ e h1 h2 h3 =>
    obtain ⟨rfl, h4⟩ := turned_of h3 (List.mem_singleton.1 hm)
    exact ⟨.inl h2, h4⟩
  | refused => cases hm
  | updated ty n id data x j _ e e' h1 h2 =>
    rcases List.mem_cons.1 hm with hm | hm
    · obtain ⟨rfl, h4⟩ := turned_of h1 hm
      exact ⟨.inl rfl, h4⟩
    · obtain ⟨rfl, h4⟩ := turned_of h2 (List.mem_singleton.1 hm)
      exact ⟨.inr ⟨ty, n, id, data, x, j, rfl, rfl⟩, h4⟩
  | missing ty n id data x _ e h1 h2 =>
    obtain ⟨rfl, h4⟩ := turned_of h2 (List.mem_singleton.1 hm)
    exact ⟨.inl rfl, h4⟩

private theorem pending_turn {req : Req D} {evs : List (SiteEvent D O)} (h : Pending qs c req evs) {q : Nat} {w : Option Nat}
    {op : Op D O} {r : Resp D} (hm : .turn q w op r ∈ evs) : req.Sends op ∧ ∃ a, qs[q]? = some a ∧ req.call.ty? = some a.ty := by
  cases h with
  | begun => cases hm
  | served _ op' _ e h2 h3 =>
    obtain ⟨rfl, h4⟩ := turned_of h3 (List.mem_singleton.1 hm)
    exact ⟨.inl h2, h4⟩
  | updated ty n id data x j _ e e' h1 h2 =>
    rcases List.mem_cons.1 hm with hm | hm
    · obtain ⟨rfl, h4⟩ := turned_of h1 hm
      exact ⟨.inl rfl, h4⟩
    · obtain ⟨rfl, h4⟩ := turned_of h2 (List.mem_singleton.1 hm)
      exact ⟨.inr ⟨ty, n, id, data, x, j, rfl, rfl⟩, h4⟩

/-- The request behind a turn. -/
theorem History.turn {tr : List (SiteEvent D O)} (h : History qs c tr) {q : Nat} {w : Option Nat} {op : Op D O} {r : Resp D} (hm : .turn q w op r ∈ tr) :
    ∃ req, .call c req ∈ tr ∧ req.Sends op ∧ ∃ a, qs[q]? = some a ∧ req.call.ty? = some a.ty := by
  obtain ⟨past, now, rfl, h1, h2⟩ := h
  rcases List.mem_append.1 hm with hm | hm
  · suffices h : ∃ req, .call c req ∈ past ∧ req.Sends op ∧ ∃ a, qs[q]? = some a ∧ req.call.ty? = some a.ty by
      obtain ⟨req, h3, h4⟩ := h
      exact ⟨req, List.mem_append_left _ h3, h4⟩
    clear h2
    induction h1 with
    | nil => cases hm
    | snoc l req evs r' _ hf ih =>
      rcases List.mem_append.1 hm with hm | hm
      · obtain ⟨req, h3, h4⟩ := ih (List.mem_append_left _ hm) hm
        exact ⟨req, List.mem_append_left _ h3, h4⟩
      · refine ⟨req, List.mem_append_right _ (List.mem_cons_self ..), ?_⟩
        rcases List.mem_append.1 hm with hm | hm
        · rcases List.mem_cons.1 hm with hm | hm
          · cases hm
          · exact finished_turn hf hm
        · cases List.mem_singleton.1 hm
  · rcases h2 with rfl | ⟨req, evs, rfl, h3⟩
    · cases hm
    · refine ⟨req, List.mem_append_right _ (List.mem_cons_self ..), ?_⟩
      rcases List.mem_cons.1 hm with hm | hm
      · cases hm
      · exact pending_turn h3 hm

end

namespace Props
variable {D O : Type} {E : Nat → Env D} {clk : Nat → Nat → Time} {kind : Str → Nat} {ops : List (WeaveOp D O)} {P : Op D O → Prop}

/-- Between turns a work queue of a process is as one alone, all of whose turns have a property that its executions and all messages of requests for its
type have. -/
theorem process_reach (b : Impl) (L : ∀ ty, (E ty).Lawful) (hops : ∀ c req, .site (.begin c req) ∈ ops → req.On kind)
    (h1 : ((Weave.init b.B fun _ => b.empty).run E b.B clk ops).site.hub.engines.length ≤ 1) (q : Nat) (a : QueueActor)
    (ha : ((Weave.init b.B fun _ => b.empty).run E b.B clk ops).site.hub.queues[q]? = some a)
    (hi : ((Weave.init b.B fun _ => b.empty).run E b.B clk ops).inside q = none)
    (hturn : ∀ op, .site (.turn q op) ∈ ops → op.Own → P op)
    (hreq : ∀ d req op, .site (.begin d req) ∈ ops → req.Sends op → req.call.ty? = some a.ty → P op) :
    ∃ s : Sys D b.B, Reach b (E a.ty) a.name (clk q) (fun _ op => P op) s ∧
      (((Weave.init b.B fun _ => b.empty).run E b.B clk ops).site.snap b E q a).Alike (kind · = a.ty) (b.snap (E a.ty) a.name s) := by
  obtain ⟨-, -, h4, -, -⟩ := C79_serial_partial (E := E) (clk := clk) b L kind ops hops h1
  have h := (C79_alone_partial (E := E) (clk := clk) b L kind ops hops h1 q a ha hi).2
  refine ⟨_, reach_ops _ fun _ op hop => ?_, funext h.lists, h.tasks, h.cfg, h.alive, h.reads, h.log,
    fun k hk => congrArg (Option.bind · (E a.ty).codec.dec) (h.stored k hk)⟩
  obtain ⟨⟨op', r⟩, g1, rfl⟩ := List.mem_map.1 hop
  obtain ⟨e, g2, g3⟩ := List.mem_filterMap.1 g1
  cases e with
  | turn p who op r =>
    simp only [SiteEvent.at] at g3
    split at g3
    · rename_i hpq
      cases g3
      subst hpq
      cases who with
      | none =>
        have g4 := g2
        rw [h4] at g4
        have hrel : Site.Rel b ((Site.init b.B fun _ => b.empty).run E b.B clk ((Weave.init b.B fun _ => b.empty).serial E clk ops))
            ((Site.init SpecB fun _ => Spec.empty).run E SpecB clk ((Weave.init b.B fun _ => b.empty).serial E clk ops)) :=
          Site.Rel.run ⟨rfl, rfl, fun _ => b.empty_rel, rfl, rfl⟩ _
        have hO := Site.origin_run (E := E) (clk := clk) (Site.links_init fun _ => Spec.empty) Site.origin_init
          ((Weave.init b.B fun _ => b.empty).serial E clk ops)
        rw [hrel.trace] at g4
        rcases hO.turns _ _ _ _ g4 with ⟨-, g5⟩ | ⟨d, req, e, -⟩
        · have g6 := C79_own (E := E) (clk := clk) b.B (fun _ => b.empty) ops p _ r g2
          rw [List.nil_append] at g5
          have := Weave.serial_turn (E := E) (clk := clk) (past := []) (Weave.tidy_init (D := D) (O := O) fun _ => b.empty) (fun _ _ h => by cases h) g5
          exact hturn _ this g6
        · cases e
      | some d =>
        obtain ⟨req, g5, g6, a', g7, g8⟩ := (C79_history E clk b.B (fun _ => b.empty) ops d).turn (List.mem_filter.2 ⟨g2, by simp [SiteEvent.of]⟩)
        rw [ha] at g7
        cases g7
        have g5 := (List.mem_filter.1 g5).1
        rw [h4] at g5
        rcases Site.run_call _ _ g5 with g5 | g5
        · cases g5
        · exact hreq d req _ (Weave.serial_begin g5) g6 g8
    · cases g3
  | _ => cases g3

/-- What is asked of a turn for the sake of `k`, without knowing the state. -/
def Neat (E : Env D) (k : Str) : Op D O → Prop
  | .enqueue job cfg => job.id = k → E.Encodable job ∧ job.context.jobStatus = .queued ∧ (cfg.overrideData = true → cfg.reRun = true)
  | .finish _ x => ∀ job, job.id = k → E.Encodable job → x.Serialisable E job
  | _ => True

theorem Neat.careful {E : Env D} {name k : Str} {clk : Nat → Time} {b : Impl} {P : Snap D → Op D O → Prop} (L : E.Lawful) {s : Sys D b.B}
    (hs : Reach b E name clk P s) {op : Op D O} (h : Neat E k op) : CarefulFor E k (b.snap E name s) op := by
  cases op with
  | enqueue job cfg =>
    intro hid
    obtain ⟨h1, h2, h3⟩ := h hid
    refine ⟨h1, fun ex _ hov hr hd => ?_⟩
    rw [h3 hov, Bool.true_and] at hd
    rw [h2]
    unfold Job.isRunning at hr
    unfold Job.isDone at hd
    cases hs : ex.context.jobStatus <;> simp [hs] at hr hd
    rfl
  | finish i x =>
    intro orig job ht hid
    obtain ⟨-, g1, g2⟩ := reach_exec L hs (ht : s.tasks[i]? = some ⟨orig, some job⟩)
    obtain rfl := g2 job rfl
    exact h _ hid g1.counted.2
  | _ => trivial

theorem Neat.reach {E : Env D} {name k : Str} {clk : Nat → Time} {b : Impl} {P : Op D O → Prop} (L : E.Lawful) {s : Sys D b.B}
    (hP : ∀ op, P op → Neat E k op) (hs : Reach b E name clk (fun _ op => P op) s) : Reach b E name clk (fun v op => CarefulFor E k v op ∧ P op) s :=
  Reach.induct (Q := fun s => Reach (O := O) b E name clk (fun v op => CarefulFor E k v op ∧ P op) s) .start
    (fun _ op hs hp ih => .step op ih ⟨Neat.careful L hs (hP op hp), hp⟩) hs

end Props
end AJ
