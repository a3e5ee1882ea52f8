import Verif.Spec.Crash
import Verif.Proofs.Adrift

/-! # Crash points of the work queue's programs -/

namespace AJ
open W

namespace Prog
variable {α β : Type} {B : Backend} {clk : Nat → Time}

theorem Crash.refl (p : Prog α) (w : World B) : p.Crash B clk w w := by
  cases p <;> first | rfl | exact .inl rfl

theorem Crash.bind {p : Prog α} {f : α → Prog β} {w w' : World B} (h : (p.bind f).Crash B clk w w') :
    p.Crash B clk w w' ∨ ∃ a w1, p.run B clk w = (.ok a, w1) ∧ (f a).Crash B clk w1 w' := by
  induction p generalizing w with
  | ret a => exact .inr ⟨a, w, rfl, h⟩
  | fail e => exact .inl h
  | panic => exact .inl h
  | diverge => exact .inl h
  | call op k ih =>
    rcases h with h | h
    · exact .inl (.inl h)
    · rcases ih _ h with h | h
      · exact .inl (.inr h)
      · exact .inr h
  | now k ih =>
    rcases h with h | h
    · exact .inl (.inl h)
    · rcases ih _ h with h | h
      · exact .inl (.inr h)
      · exact .inr h
  | emit e k ih =>
    rcases h with h | h
    · exact .inl (.inl h)
    · rcases ih h with h | h
      · exact .inl (.inr h)
      · exact .inr h

theorem Crash.catchErr {p : Prog α} {w w' : World B} (h : p.catchErr.Crash B clk w w') : p.Crash B clk w w' := by
  induction p generalizing w with
  | ret a => exact h
  | fail e => exact h
  | panic => exact h
  | diverge => exact h
  | call op k ih => exact h.imp id (ih _)
  | now k ih => exact h.imp id (ih _)
  | emit e k ih => exact h.imp id ih

theorem Crash.last (p : Prog α) (w : World B) : p.Crash B clk w (p.run B clk w).2 := by
  induction p generalizing w with
  | ret a => rfl
  | fail e => rfl
  | panic => rfl
  | diverge => rfl
  | call op k ih => exact .inr (ih _ _)
  | now k ih => exact .inr (ih _ _)
  | emit e k ih => exact .inr (ih _)

/-- The world after at most `n` calls, clock reads and messages of a program. -/
def upto {α : Type} (B : Backend) (clk : Nat → Time) : Nat → Prog α → World B → World B
  | n + 1, .call op k, w => (k (B.exec op w.s).1).upto B clk n { w with s := (B.exec op w.s).2 }
  | n + 1, .now k, w => (k (clk w.t)).upto B clk n { w with t := w.t + 1 }
  | n + 1, .emit e k, w => k.upto B clk n { w with log := w.log ++ [e] }
  | _, _, w => w

theorem Crash.upto (n : Nat) (p : Prog α) (w : World B) : p.Crash B clk w (p.upto B clk n w) := by
  induction n generalizing p w with
  | zero => exact Crash.refl p w
  | succ n ih =>
    cases p with
    | call op k => exact .inr (ih _ _)
    | now k => exact .inr (ih _ _)
    | emit e k => exact .inr (ih _ _)
    | _ => rfl

/-- And these are all crash points. -/
theorem Crash.exists_upto {p : Prog α} {w w' : World B} (h : p.Crash B clk w w') : ∃ n, w' = p.upto B clk n w := by
  induction p generalizing w with
  | ret a => exact ⟨0, h⟩
  | fail e => exact ⟨0, h⟩
  | panic => exact ⟨0, h⟩
  | diverge => exact ⟨0, h⟩
  | call op k ih =>
    rcases h with h | h
    · exact ⟨0, h⟩
    · obtain ⟨n, h⟩ := ih _ h; exact ⟨n + 1, h⟩
  | now k ih =>
    rcases h with h | h
    · exact ⟨0, h⟩
    · obtain ⟨n, h⟩ := ih _ h; exact ⟨n + 1, h⟩
  | emit e k ih =>
    rcases h with h | h
    · exact ⟨0, h⟩
    · obtain ⟨n, h⟩ := ih h; exact ⟨n + 1, h⟩

/-- One backend call. -/
theorem Crash.callQ {op : BOp} {w w' : World B} (h : (orFail (call' op)).Crash B clk w w') :
    w' = w ∨ w' = { w with s := (B.exec op w.s).2 } := by
  rcases h with h | h
  · exact .inl h
  · right
    simp only [ret_bind] at h
    generalize (B.exec op w.s).1 = r at h
    cases r <;> exact h

theorem Crash.sim {ok : BOp → Prop} (S : Sim B ok) {p : Prog α} (hp : p.AllOps ok) {w w' : World B} {v : World SpecB}
    (hr : S.RW w v) (h : p.Crash B clk w w') : ∃ v', p.Crash SpecB clk v v' ∧ S.RW w' v' := by
  induction p generalizing w v with
  | ret a => cases h; exact ⟨v, rfl, hr⟩
  | fail e => cases h; exact ⟨v, rfl, hr⟩
  | panic => cases h; exact ⟨v, rfl, hr⟩
  | diverge => cases h; exact ⟨v, rfl, hr⟩
  | call op k ih =>
    rcases h with rfl | h
    · exact ⟨v, .inl rfl, hr⟩
    · obtain ⟨h1, h2⟩ := S.step op w.s v.s hp.1 hr.s
      rw [h1] at h
      obtain ⟨v', h3, h4⟩ := ih _ (hp.2 _) (w := { w with s := (B.exec op w.s).2 }) (v := { v with s := (Spec.exec op v.s).2 })
        ⟨h2, hr.t, hr.log⟩ h
      exact ⟨v', .inr h3, h4⟩
  | now k ih =>
    rcases h with rfl | h
    · exact ⟨v, .inl rfl, hr⟩
    · rw [hr.t] at h
      obtain ⟨v', h3, h4⟩ := ih _ (hp _) (w := { w with t := v.t + 1 }) (v := { v with t := v.t + 1 }) ⟨hr.s, rfl, hr.log⟩ h
      exact ⟨v', .inr h3, h4⟩
  | emit e k ih =>
    rcases h with rfl | h
    · exact ⟨v, .inl rfl, hr⟩
    · obtain ⟨v', h3, h4⟩ := ih hp (w := { w with log := w.log ++ [e] }) (v := { v with log := v.log ++ [e] })
        ⟨hr.s, hr.t, by simp [hr.log]⟩ h
      exact ⟨v', .inr h3, h4⟩

/-- Every backend call satisfies `ok`, and a returned value satisfies `post`. -/
def Sat (ok : BOp → Prop) (post : α → Prop) : Prog α → Prop
  | ret a => post a
  | fail _ => True
  | panic => True
  | diverge => True
  | call op k => ok op ∧ ∀ r, Sat ok post (k r)
  | now k => ∀ t, Sat ok post (k t)
  | emit _ k => Sat ok post k

theorem Sat.bind {ok : BOp → Prop} {post : α → Prop} {post' : β → Prop} {p : Prog α} {f : α → Prog β}
    (hp : p.Sat ok post) (hf : ∀ a, post a → (f a).Sat ok post') : (p.bind f).Sat ok post' := by
  induction p with
  | ret a => exact hf a hp
  | fail e => trivial
  | panic => trivial
  | diverge => trivial
  | call op k ih => exact ⟨hp.1, fun r => ih r (hp.2 r)⟩
  | now k ih => exact fun t => ih t (hp t)
  | emit e k ih => exact ih hp

theorem Sat.catchErr {ok : BOp → Prop} {post : α → Prop} {p : Prog α} (hp : p.Sat ok post) :
    p.catchErr.Sat ok fun _ => True := by
  induction p with
  | ret a => trivial
  | fail e => trivial
  | panic => trivial
  | diverge => trivial
  | call op k ih => exact ⟨hp.1, fun r => ih r (hp.2 r)⟩
  | now k ih => exact fun t => ih t (hp t)
  | emit e k ih => exact ih hp

theorem Sat.weaken {ok : BOp → Prop} {post post' : α → Prop} (h : ∀ a, post a → post' a) {p : Prog α} (hp : p.Sat ok post) :
    p.Sat ok post' := by
  induction p with
  | ret a => exact h a hp
  | fail e => trivial
  | panic => trivial
  | diverge => trivial
  | call op k ih => exact ⟨hp.1, fun r => ih r (hp.2 r)⟩
  | now k ih => exact fun t => ih t (hp t)
  | emit e k ih => exact ih hp

theorem Sat.callQ {ok : BOp → Prop} {op : BOp} (h : ok op) : (orFail (call' op)).Sat ok fun _ => True :=
  ⟨h, fun r => by
    simp only [ret_bind]
    cases r <;> trivial⟩

theorem Sat.callV {ok : BOp → Prop} {op : BOp} (h : ok op) : (call' op).Sat ok fun _ => True := ⟨h, fun _ => trivial⟩

/-- An invariant of the calls is an invariant of the crash points. -/
theorem Crash.sat {ok : BOp → Prop} {post : α → Prop} {I : B.S → Prop} (hI : ∀ op s, ok op → I s → I (B.exec op s).2)
    {p : Prog α} (hp : p.Sat ok post) {w w' : World B} (hw : I w.s) (h : p.Crash B clk w w') : I w'.s := by
  induction p generalizing w with
  | ret a => cases h; exact hw
  | fail e => cases h; exact hw
  | panic => cases h; exact hw
  | diverge => cases h; exact hw
  | call op k ih =>
    rcases h with rfl | h
    · exact hw
    · exact ih _ (hp.2 _) (hI op _ hp.1 hw) h
  | now k ih =>
    rcases h with rfl | h
    · exact hw
    · exact ih _ (hp _) (w := { w with t := w.t + 1 }) hw h
  | emit e k ih =>
    rcases h with rfl | h
    · exact hw
    · exact ih hp (w := { w with log := w.log ++ [e] }) hw h

/-! ## Crashes are faults -/

theorem run_down (n i : Nat) (hi : n ≤ i) (p : Prog α) (w : World (Faulty B (crashAfter n))) (hw : w.s.2 = i) :
    (p.run (Faulty B (crashAfter n)) clk w).2.s.1 = w.s.1 := by
  induction p generalizing w i with
  | ret a => rfl
  | fail e => rfl
  | panic => rfl
  | diverge => rfl
  | call op k ih =>
    obtain ⟨⟨s, c⟩, t, l⟩ := w
    have hw : c = i := hw
    subst hw
    have hc : ¬ c < n := by omega
    have e : (Faulty B (crashAfter n)).exec op (s, c) = (.error .redis, (s, c + 1)) := by
      simp [Faulty, crashAfter, hc, Backend.execAll]
    simp only [run_call, e]
    exact ih _ (c + 1) (by omega) ⟨(s, c + 1), t, l⟩ rfl
  | now k ih => exact ih _ i hi _ hw
  | emit e k ih => exact ih i hi _ hw

/-- A backend whose calls stop working after `n` calls is left in the state of a crash point. -/
theorem crash_of_fault (n : Nat) (p : Prog α) (w : World B) (c : Nat) :
    ∃ w', p.Crash B clk w w' ∧
      (p.run (Faulty B (crashAfter n)) clk ⟨(w.s, c), w.t, w.log⟩).2.s.1 = w'.s := by
  induction p generalizing w c with
  | ret a => exact ⟨w, rfl, rfl⟩
  | fail e => exact ⟨w, rfl, rfl⟩
  | panic => exact ⟨w, rfl, rfl⟩
  | diverge => exact ⟨w, rfl, rfl⟩
  | call op k ih =>
    by_cases hc : c < n
    · have e : (Faulty B (crashAfter n)).exec op (w.s, c) = ((B.exec op w.s).1, ((B.exec op w.s).2, c + 1)) := by
        simp [Faulty, crashAfter, hc, Backend.execAll]
      obtain ⟨w', h1, h2⟩ := ih (B.exec op w.s).1 { w with s := (B.exec op w.s).2 } (c + 1)
      refine ⟨w', .inr h1, ?_⟩
      simp only [run_call, e]
      exact h2
    · exact ⟨w, .inl rfl, run_down n c (by omega) (.call op k) ⟨(w.s, c), w.t, w.log⟩ rfl⟩
  | now k ih =>
    obtain ⟨w', h1, h2⟩ := ih _ { w with t := w.t + 1 } c
    exact ⟨w', .inr h1, h2⟩
  | emit e k ih =>
    obtain ⟨w', h1, h2⟩ := ih { w with log := w.log ++ [e] } c
    exact ⟨w', .inr h1, h2⟩

/-- The state of a crash point is what is left when the backend calls stop working at some moment. -/
theorem fault_of_crash {p : Prog α} {w w' : World B} (h : p.Crash B clk w w') (c : Nat) :
    ∃ n, (p.run (Faulty B (crashAfter n)) clk ⟨(w.s, c), w.t, w.log⟩).2.s.1 = w'.s := by
  induction p generalizing w c with
  | ret a => cases h; exact ⟨0, rfl⟩
  | fail e => cases h; exact ⟨0, rfl⟩
  | panic => cases h; exact ⟨0, rfl⟩
  | diverge => cases h; exact ⟨0, rfl⟩
  | call op k ih =>
    rcases h with rfl | h
    · exact ⟨c, run_down c c (Nat.le_refl _) (.call op k) ⟨(w'.s, c), w'.t, w'.log⟩ rfl⟩
    · obtain ⟨n, hn⟩ := ih _ h (c + 1)
      by_cases hc : c < n
      · refine ⟨n, ?_⟩
        have e : (Faulty B (crashAfter n)).exec op (w.s, c) = ((B.exec op w.s).1, ((B.exec op w.s).2, c + 1)) := by
          simp [Faulty, crashAfter, hc, Backend.execAll]
        simp only [run_call, e]
        exact hn
      · have h1 := run_down (clk := clk) n (c + 1) (by omega) (k (B.exec op w.s).1)
          ⟨((B.exec op w.s).2, c + 1), w.t, w.log⟩ rfl
        have h2 : w'.s = (B.exec op w.s).2 := hn.symm.trans h1
        refine ⟨c + 1, ?_⟩
        have e : (Faulty B (crashAfter (c + 1))).exec op (w.s, c) = ((B.exec op w.s).1, ((B.exec op w.s).2, c + 1)) := by
          simp [Faulty, crashAfter, Backend.execAll]
        simp only [run_call, e]
        rw [h2]
        exact run_down (c + 1) (c + 1) (Nat.le_refl _) _ _ rfl
  | now k ih =>
    rcases h with rfl | h
    · exact ⟨c, run_down c c (Nat.le_refl _) (.now k) ⟨(w'.s, c), w'.t, w'.log⟩ rfl⟩
    · exact ih _ h c
  | emit e k ih =>
    rcases h with rfl | h
    · exact ⟨c, run_down c c (Nat.le_refl _) (.emit e k) ⟨(w'.s, c), w'.t, w'.log⟩ rfl⟩
    · exact ih h c

end Prog

end AJ
