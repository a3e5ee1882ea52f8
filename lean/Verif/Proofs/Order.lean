import Verif.Proofs.TickFacts

/-! # The place of a job in the queue -/

namespace AJ
open W

theorem idxOf_sublist {x : Str} {l1 l2 : List Str} (h : l1.Sublist l2) (hm : x ∈ l1) (hc : l2.count x = 1) :
    l1.idxOf x ≤ l2.idxOf x := by
  induction h with
  | slnil => exact Nat.le_refl _
  | @cons l1 l2 a h ih =>
    have hax : a ≠ x := by
      rintro rfl
      rw [List.count_cons_self] at hc
      have : 0 < l2.count a := List.count_pos_iff.mpr (h.subset hm)
      omega
    rw [List.count_cons_of_ne hax] at hc
    rw [List.idxOf_cons_ne _ hax]
    exact Nat.le_succ_of_le (ih hm hc)
  | @cons_cons l1 l2 a h ih =>
    by_cases hax : a = x
    · subst hax; simp
    · rw [List.count_cons_of_ne hax] at hc
      rw [List.idxOf_cons_ne _ hax, List.idxOf_cons_ne _ hax]
      exact Nat.succ_le_succ (ih ((List.mem_cons.mp hm).resolve_left (fun e => hax e.symm)) hc)

theorem idxOf_sublist_lt {x y : Str} {l1 l2 : List Str} (h : l1.Sublist l2) (hm : x ∈ l1) (hc : l2.count x = 1)
    (hy : y ∉ l1) (hlt : l2.idxOf y < l2.idxOf x) : l1.idxOf x < l2.idxOf x := by
  induction h with
  | slnil => cases hm
  | @cons l1 l2 a h ih =>
    have hax : a ≠ x := by
      rintro rfl
      rw [List.count_cons_self] at hc
      have : 0 < l2.count a := List.count_pos_iff.mpr (h.subset hm)
      omega
    rw [List.count_cons_of_ne hax] at hc
    rw [List.idxOf_cons_ne _ hax]
    exact Nat.lt_succ_of_le (idxOf_sublist h hm hc)
  | @cons_cons l1 l2 a h ih =>
    have hay : a ≠ y := by rintro rfl; exact hy List.mem_cons_self
    by_cases hax : a = x
    · subst hax; rw [List.idxOf_cons_self] at hlt; omega
    · rw [List.count_cons_of_ne hax] at hc
      rw [List.idxOf_cons_ne _ hax, List.idxOf_cons_ne _ hay] at hlt
      rw [List.idxOf_cons_ne _ hax, List.idxOf_cons_ne _ hax]
      exact Nat.succ_lt_succ (ih ((List.mem_cons.mp hm).resolve_left (fun e => hax e.symm)) hc
        (fun e => hy (List.mem_cons_of_mem _ e)) (by omega))

section
variable {D O : Type} {E : Env D} {name : Str} {clk : Nat → Time} {k : Str}

theorem W.Touch.place {k' : Str} (hk : k ≠ k') {w w' : W} (h : Touch E name k' w w')
    (h1 : (lst name w .queued).count k = 1) :
    (lst name w' .queued).reverse.idxOf k ≤ (lst name w .queued).reverse.idxOf k := by
  obtain ⟨n, l, e, hs⟩ := h.order .queued
  have hc := h.count k hk .queued
  have hm : k ∈ l := by
    have : 0 < (lst name w' .queued).count k := by omega
    rw [List.count_pos_iff, e, List.mem_append] at this
    rcases this with h | h
    · exact absurd (List.eq_of_mem_replicate h) hk
    · exact h
  rw [e, List.reverse_append, List.idxOf_append_of_mem (by simpa using hm)]
  exact idxOf_sublist (List.reverse_sublist.mpr hs) (by simpa using hm) (by simpa using h1)

/-- No turn but a tick moves a queued job back, unless it is cancelled or submitted again. -/
theorem step_place {s : Sys D SpecB} (hT : Tidy E s) (h : Solo k (Sys.obs E name s)) (op : Op D O)
    (hq : (Sys.obs E name s).status k = some .queued) (hop : op ≠ .tick)
    (he : ∀ j c, op = .enqueue j c → j.id ≠ k) (hc : op ≠ .cancel k) :
    (Sys.obs E name (Sys.step E name SpecB clk s op).1).fifo.idxOf k ≤ (Sys.obs E name s).fifo.idxOf k := by
  by_cases ha : s.alive = true
  swap
  · rw [Sys.step_dead s (by simpa using ha)]; exact Nat.le_refl _
  have h1 : (lst name s.w .queued).count k = 1 := by have := h.queued; rwa [if_pos hq] at this
  have hidle := h.idle (by rw [hq]; simp)
  have hno : ∀ (i : Nat) (t : Task D), s.tasks[i]? = some t → k ≠ t.orig.id := by
    rintro i t ht rfl
    have : t ∈ (Sys.obs E name s).own t.orig.id :=
      List.mem_filter.mpr ⟨List.mem_of_getElem? ht, by simp⟩
    rw [hidle] at this; cases this
  have hs := Sys.step_cases (E := E) (name := name) (clk := clk) s ha op
  generalize Sys.step E name SpecB clk s op = p at hs
  cases hs with
  | enqueue j c => exact (Touch.submit (E := E) (name := name) (clk := clk) j c s.w).place (Ne.symm (he j c rfl)) h1
  | cancel k' =>
    exact (Touch.cancel (name := name) (clk := clk) hT.keyed k').place (fun e => hc (by rw [e])) h1
  | retry k' =>
    by_cases e : k = k'
    · subst e
      obtain ⟨j, hj, hst⟩ := Option.map_eq_some_iff.mp hq
      have hj : view E s.w k = some j := hj
      have : W.retry E name clk k s.w = s.w := by
        unfold W.retry; rw [hj]; simp [Job.isDone, hst]
      show (lst name (W.retry E name clk k s.w) .queued).reverse.idxOf k ≤ _
      rw [this]; exact Nat.le_refl _
    · exact (Touch.retry (name := name) (clk := clk) hT.keyed k').place e h1
  | tick n => exact absurd rfl hop
  | tickPanic => exact absurd rfl hop
  | startCancelled i orig hi _ =>
    exact (Touch.push (E := E) (name := name) orig.id .canceled s.w).place (hno i _ hi) h1
  | finished i x orig job w hi hf =>
    have hid : job.id = orig.id := by rw [hT.exec _ (List.mem_of_getElem? hi) job rfl]; rfl
    exact hf.touch.place (fun e => hno i _ hi (e.trans hid)) h1
  | finishPanic i x orig job w hi hf =>
    have hid : job.id = orig.id := by rw [hT.exec _ (List.mem_of_getElem? hi) job rfl]; rfl
    exact hf.touch.place (fun e => hno i _ hi (e.trans hid)) h1
  | _ => exact Nat.le_refl _

end
end AJ
