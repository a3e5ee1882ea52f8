import Verif.Proofs.Grant
import Verif.Proofs.EndlessBoot
import Verif.Spec.EndlessBoot

/-! # Endless histories whose scans take as many rounds as they need: proofs -/

namespace AJ
namespace Weave
variable {D O : Type} {E : Nat → Env D} {clk : Nat → Nat → Time} {kind : Str → Nat} {b : Impl} {S : Site.Base E kind} {N : Nat → Str}

/-- The history `hist` through the states `ψ` is the history `ops` through the states `φ`, with a call more after steps that begin ticks. -/
structure Stretch (b : Impl) (φ : Nat → Weave D O b.B) (ops : Nat → WeaveOp D O) (ψ : Nat → Weave D O SpecB) (hist : Nat → WeaveOp D O)
    (idx : Nat → Nat) : Prop where
  zero : idx 0 = 0
  next : ∀ n, idx (n + 1) = idx n + 1 ∨ (idx (n + 1) = idx n + 2 ∧ (∃ q, hist (idx n + 1) = .go q) ∧ (∃ p, ops n = .site (.turn p .tick)) ∧
    (ψ (idx n + 1)).site = (ψ (idx n)).site)
  step : ∀ n, hist (idx n) = ops n
  site : ∀ n, Site.Rel b (φ n).site (ψ (idx n)).site
  head : ∀ n q, ((φ n).inside q).map Inside.head = ((ψ (idx n)).inside q).map Inside.head
  kept : ∀ n q, idx (n + 1) = idx n + 2 → ((φ (n + 1)).inside q = none → (φ n).inside q = none) ∧
    ((φ (n + 1)).inside q = none ↔ (ψ (idx n + 1)).inside q = none)

theorem ticking_head {x y : Option (Inside D O)} (h : x.map Inside.head = y.map Inside.head) : ticking x = ticking y := by
  cases x with
  | none => cases y with
    | none => rfl
    | some y => cases h
  | some x => cases y with
    | none => cases h
    | some y =>
      have h : (x.who, x.op) = (y.who, y.op) := Option.some.inj h
      obtain ⟨w, op, r⟩ := x
      obtain ⟨w', op', r'⟩ := y
      obtain ⟨rfl, rfl⟩ := Prod.mk.inj h
      cases w <;> cases op <;> rfl

section
variable {φ : Nat → Weave D O b.B} {ops : Nat → WeaveOp D O} {ψ : Nat → Weave D O SpecB} {hist : Nat → WeaveOp D O} {idx : Nat → Nat}

theorem Stretch.inside (h : Stretch b φ ops ψ hist idx) (n q : Nat) : ((φ n).inside q).isNone = ((ψ (idx n)).inside q).isNone := by
  have := congrArg Option.isNone (h.head n q)
  simpa using this

theorem Stretch.lt_next (h : Stretch b φ ops ψ hist idx) (n : Nat) : idx n < idx (n + 1) := by
  rcases h.next n with e | ⟨e, -⟩ <;> omega

theorem Stretch.mono (h : Stretch b φ ops ψ hist idx) {n m : Nat} (hn : n ≤ m) : idx n ≤ idx m := by
  induction hn with
  | refl => exact Nat.le_refl _
  | step _ ih => exact Nat.le_trans ih (Nat.le_of_lt (h.lt_next _))

theorem Stretch.lt (h : Stretch b φ ops ψ hist idx) {n m : Nat} (hn : n < m) : idx n < idx m :=
  Nat.lt_of_lt_of_le (h.lt_next n) (h.mono hn)

theorem Stretch.le (h : Stretch b φ ops ψ hist idx) (n : Nat) : n ≤ idx n := by
  induction n with
  | zero => exact Nat.zero_le _
  | succ n ih => exact Nat.lt_of_le_of_lt ih (h.lt_next n)

/-- Every moment of the longer history is one of the shorter one, or just after a tick has begun. -/
theorem Stretch.back (h : Stretch b φ ops ψ hist idx) (m : Nat) : ∃ n, Site.Rel b (φ n).site (ψ m).site ∧ (m = idx n ∨
    (m = idx n + 1 ∧ m < idx (n + 1) ∧ (∃ q, hist m = .go q) ∧ ∃ p, ops n = .site (.turn p .tick))) := by
  induction m with
  | zero => exact ⟨0, by have := h.site 0; rwa [h.zero] at this, .inl h.zero.symm⟩
  | succ m ih =>
    obtain ⟨n, -, e | ⟨e, e2, -⟩⟩ := ih
    · rcases h.next n with e' | ⟨e', hq, hp, hs⟩
      · refine ⟨n + 1, ?_, .inl (by omega)⟩
        rw [show m + 1 = idx (n + 1) by omega]
        exact h.site _
      · subst e
        exact ⟨n, by rw [hs]; exact h.site n, .inr ⟨rfl, by omega, hq, hp⟩⟩
    · have e3 : m + 1 = idx (n + 1) := by
        rcases h.next n with e' | ⟨e', -⟩ <;> omega
      exact ⟨n + 1, by rw [e3]; exact h.site _, .inl e3⟩

/-- A step that is not a call of a turn. -/
theorem Stretch.said (h : Stretch b φ ops ψ hist idx) {m : Nat} {o : SiteOp D O} (hm : hist m = .site o) : ∃ n, m = idx n ∧ ops n = .site o := by
  obtain ⟨n, -, rfl | ⟨-, -, ⟨q, e⟩, -⟩⟩ := h.back m
  · exact ⟨n, rfl, by rw [← h.step]; exact hm⟩
  · rw [e] at hm; cases hm

theorem Stretch.none_iff (h : Stretch b φ ops ψ hist idx) (n q : Nat) : (φ n).inside q = none ↔ (ψ (idx n)).inside q = none := by
  have := h.inside n q
  rw [← Option.isNone_iff_eq_none, ← Option.isNone_iff_eq_none, this]

theorem Stretch.ticks_eq (h : Stretch b φ ops ψ hist idx) (n q : Nat) : (φ n).ticks q (ops n) = (ψ (idx n)).ticks q (hist (idx n)) := by
  rw [h.step]
  unfold Weave.ticks
  rw [h.inside]

/-- A moment at which something holds that does not hold at the same moment of the shorter history is a later one. -/
theorem Stretch.later (h : Stretch b φ ops ψ hist idx) {m n n' : Nat} (hm : m = idx n ∨ (m = idx n + 1 ∧ m < idx (n + 1) ∧ (∃ q, hist m = .go q) ∧
    ∃ p, ops n = .site (.turn p .tick))) (hn : n < n') : m ≤ idx n' := by
  have h3 : idx (n + 1) ≤ idx n' := h.mono hn
  have := h.lt_next n
  rcases hm with rfl | ⟨-, h2, -⟩ <;> omega

theorem Stretch.runs (h : Stretch b φ ops ψ hist idx) {k : Str} {q : Nat} {a : QueueActor} {P : Executable D O → Job D → Prop}
    (H : EachRunOn b E k q a φ ops P) : EachRunOn .spec E k q a ψ hist P := by
  intro m i x orig job e hi ht hid
  obtain ⟨n, rfl, e'⟩ := h.said e
  refine H n i x orig job e' ((h.none_iff n q).2 hi) ?_ hid
  rw [Site.snap_rel (h.site n)]
  exact ht

theorem Stretch.brief (h : Stretch b φ ops ψ hist idx) {q : Nat} {a : QueueActor} (H : BriefOn b E q a φ ops) : BriefOn .spec E q a ψ hist := by
  rcases H with H | H
  · refine .inl fun m hm => ?_
    have : ∃ o, hist m = .site o := by
      cases e : hist m with
      | site o => exact ⟨o, rfl⟩
      | go p => rw [e] at hm; cases hm
    obtain ⟨o, ho⟩ := this
    obtain ⟨n, rfl, -⟩ := h.said ho
    have e : (φ n).site.snap b E q a = Site.snap Impl.spec E (ψ (idx n)).site q a := Site.snap_rel (h.site n) q a
    have := H n (by rw [h.ticks_eq]; exact hm)
    rw [e] at this
    exact this
  · refine .inr fun m => ?_
    obtain ⟨n, h1, h2, h3, h4⟩ := H m
    rcases h.next n with e | ⟨e, -⟩
    · have e' : (φ (n + 1)).site.snap b E q a = Site.snap Impl.spec E (ψ (idx (n + 1))).site q a := Site.snap_rel (h.site (n + 1)) q a
      rw [e'] at h4
      have h3 := (h.none_iff (n + 1) q).1 h3
      rw [e] at h3 h4
      exact ⟨idx n, Nat.le_trans h1 (h.le n), (ticking_head (h.head n q)).symm.trans h2, h3, h4⟩
    · rw [(h.kept n q e).1 h3] at h2
      cases h2

theorem Stretch.serves (h : Stretch b φ ops ψ hist idx) {k : Str} {q : Nat} {a : QueueActor} (H : ServesOn b E k q a φ ops) :
    ServesOn .spec E k q a ψ hist where
  code := h.runs H.code
  ends := by
    intro m hk
    obtain ⟨n, hs, hm⟩ := h.back m
    have e : (φ n).site.snap b E q a = Site.snap Impl.spec E (ψ m).site q a := Site.snap_rel hs q a
    have hk' : k ∈ ((φ n).site.snap b E q a).inFlight := by rw [e]; exact hk
    obtain ⟨n', h1, h2⟩ := H.ends n hk'
    have hlt : n < n' := by
      rcases Nat.eq_or_lt_of_le h1 with e2 | e2
      · subst e2; exact absurd hk' h2
      · exact e2
    refine ⟨idx n', h.later hm hlt, ?_⟩
    have e' : (φ n').site.snap b E q a = Site.snap Impl.spec E (ψ (idx n')).site q a := Site.snap_rel (h.site n') q a
    exact fun hc => h2 (by rw [e']; exact hc)
  ticks := by
    intro m
    obtain ⟨n, h1, h2, h3, h4⟩ := H.ticks m
    have e : (φ n).site.snap b E q a = Site.snap Impl.spec E (ψ (idx n)).site q a := Site.snap_rel (h.site n) q a
    rw [e] at h3 h4
    exact ⟨idx n, Nat.le_trans h1 (h.le n), (h.ticks_eq n q).symm.trans h2, h3, h4⟩
  short := h.brief H.short

theorem Stretch.moves (h : Stretch b φ ops ψ hist idx) {c ty : Nat} (H : MovesOn c ty φ ops) : MovesOn c ty ψ hist where
  client := fun m => by
    obtain ⟨n, x, h1, h2⟩ := H.client m
    exact ⟨idx n, x, Nat.le_trans h1 (h.le n), by rw [h.step]; exact h2⟩
  engine := fun m => by
    obtain ⟨n, h1, h2⟩ := H.engine m
    exact ⟨idx n, Nat.le_trans h1 (h.le n), by rw [h.step]; exact h2⟩
  post := fun m => by
    obtain ⟨n, h1, h2⟩ := H.post m
    exact ⟨idx n, Nat.le_trans h1 (h.le n), by rw [h.step]; exact h2⟩
  takes := by
    intro m q a h1 h2 h3
    obtain ⟨n, hs, hm⟩ := h.back m
    obtain ⟨n', g1, g2, g3⟩ := H.takes n q a (by rw [hs.hub]; exact h1) h2 (by rw [hs.boxes]; exact h3)
    refine ⟨idx n', ?_, by rw [h.step]; exact g2, (h.none_iff n' q).1 g3⟩
    rcases Nat.eq_or_lt_of_le g1 with e | e
    · subst e
      rcases hm with rfl | ⟨-, -, -, p, hp⟩
      · exact Nat.le_refl _
      · rw [g2] at hp; cases hp
    · exact h.later hm e

/-- The other way round. -/
theorem Stretch.runs_back (h : Stretch b φ ops ψ hist idx) {k : Str} {q : Nat} {a : QueueActor} {P : Executable D O → Job D → Prop}
    (H : EachRunOn .spec E k q a ψ hist P) : EachRunOn b E k q a φ ops P := by
  intro n i x orig job e hi ht hid
  rw [Site.snap_rel (h.site n)] at ht
  exact H (idx n) i x orig job (by rw [h.step]; exact e) ((h.none_iff n q).1 hi) ht hid

theorem Stretch.of_le (h : Stretch b φ ops ψ hist idx) {n n' : Nat} (hn : idx n ≤ idx n') : n ≤ n' := by
  by_contra hc
  exact absurd (h.lt (Nat.lt_of_not_le hc)) (by omega)

theorem Stretch.brief_back (h : Stretch b φ ops ψ hist idx) {q : Nat} {a : QueueActor} (H : BriefOn .spec E q a ψ hist) : BriefOn b E q a φ ops := by
  rcases H with H | H
  · refine .inl fun n hn => ?_
    have e : (φ n).site.snap b E q a = Site.snap Impl.spec E (ψ (idx n)).site q a := Site.snap_rel (h.site n) q a
    rw [e]
    exact H (idx n) ((h.ticks_eq n q).symm.trans hn)
  · refine .inr fun n => ?_
    obtain ⟨m, h1, h2, h3, h4⟩ := H (idx n)
    obtain ⟨n', -, rfl | ⟨rfl, h5, -⟩⟩ := h.back m
    · rcases h.next n' with e | ⟨e, -⟩
      · have e' : (φ (n' + 1)).site.snap b E q a = Site.snap Impl.spec E (ψ (idx (n' + 1))).site q a := Site.snap_rel (h.site (n' + 1)) q a
        rw [← e] at h3 h4
        exact ⟨n', h.of_le h1, (ticking_head (h.head n' q)).trans h2, (h.none_iff (n' + 1) q).2 h3, by rw [e']; exact h4⟩
      · obtain ⟨k1, k2⟩ := h.kept n' q e
        rw [(h.none_iff n' q).1 (k1 (k2.2 h3))] at h2
        cases h2
    · have e : idx (n' + 1) = idx n' + 2 := by
        rcases h.next n' with e | ⟨e, -⟩ <;> omega
      obtain ⟨-, k2⟩ := h.kept n' q e
      rw [show idx n' + 1 + 1 = idx (n' + 1) by omega] at h3
      rw [k2.1 ((h.none_iff (n' + 1) q).2 h3)] at h2
      cases h2

theorem Stretch.serves_back (h : Stretch b φ ops ψ hist idx) {k : Str} {q : Nat} {a : QueueActor} (H : ServesOn .spec E k q a ψ hist) :
    ServesOn b E k q a φ ops where
  code := h.runs_back H.code
  ends := by
    intro n hk
    have e : (φ n).site.snap b E q a = Site.snap Impl.spec E (ψ (idx n)).site q a := Site.snap_rel (h.site n) q a
    rw [e] at hk
    obtain ⟨m, h1, h2⟩ := H.ends (idx n) hk
    obtain ⟨n', hs, hm⟩ := h.back m
    have e' : (φ n').site.snap b E q a = Site.snap Impl.spec E (ψ m).site q a := Site.snap_rel hs q a
    refine ⟨n', ?_, by rw [e']; exact h2⟩
    rcases hm with rfl | ⟨-, h3, -⟩
    · exact h.of_le h1
    · by_contra hc
      have := h.mono (n := n' + 1) (m := n) (by omega)
      omega
  ticks := by
    intro n
    obtain ⟨m, h1, h2, h3, h4⟩ := H.ticks (idx n)
    have : ∃ o, hist m = .site o := by
      cases e : hist m with
      | site o => exact ⟨o, rfl⟩
      | go p => rw [e] at h2; cases h2
    obtain ⟨o, ho⟩ := this
    obtain ⟨n', rfl, -⟩ := h.said ho
    have e : (φ n').site.snap b E q a = Site.snap Impl.spec E (ψ (idx n')).site q a := Site.snap_rel (h.site n') q a
    exact ⟨n', h.of_le h1, (h.ticks_eq n' q).trans h2, by rw [e]; exact h3, by rw [e]; exact h4⟩
  short := h.brief_back H.short

theorem Stretch.moves_back (h : Stretch b φ ops ψ hist idx) {c ty : Nat} (H : MovesOn c ty ψ hist) : MovesOn c ty φ ops where
  client := fun n => by
    obtain ⟨m, x, h1, h2⟩ := H.client (idx n)
    obtain ⟨n', rfl, e⟩ := h.said h2
    exact ⟨n', x, h.of_le h1, e⟩
  engine := fun n => by
    obtain ⟨m, h1, h2⟩ := H.engine (idx n)
    obtain ⟨n', rfl, e⟩ := h.said h2
    exact ⟨n', h.of_le h1, e⟩
  post := fun n => by
    obtain ⟨m, h1, h2⟩ := H.post (idx n)
    obtain ⟨n', rfl, e⟩ := h.said h2
    exact ⟨n', h.of_le h1, e⟩
  takes := by
    intro n q a h1 h2 h3
    rw [(h.site n).hub] at h1
    rw [(h.site n).boxes] at h3
    obtain ⟨m, g1, g2, g3⟩ := H.takes (idx n) q a h1 h2 h3
    obtain ⟨n', rfl, e⟩ := h.said g2
    exact ⟨n', h.of_le g1, e, (h.none_iff n' q).2 g3⟩

theorem Stretch.polite (h : Stretch b φ ops ψ hist idx) (n : Nat) (o : SiteOp D O) : o.Polite N (φ n).site ↔ o.Polite N (ψ (idx n)).site := by
  cases o with
  | begin d req =>
    show (HubOp.begin d req.call).Orderly N _ ↔ (HubOp.begin d req.call).Orderly N _
    rw [(h.site n).hub]
  | _ => exact Iff.rfl

theorem Stretch.chance (h : Stretch b φ ops ψ hist idx) {c ty : Nat} {nm : Str} {job : Job D} {cfg : EnqueueConfig} {n0 : Nat}
    (H : ChanceOn b E kind N c ty nm job cfg n0 φ ops) : ChanceOn .spec E kind N c ty nm job cfg (idx n0) ψ hist where
  polite := fun m o hm => by
    obtain ⟨n, rfl, e⟩ := h.said hm
    exact (h.polite n o).1 (H.polite n o e)
  on := fun m d req hm => by
    obtain ⟨n, rfl, e⟩ := h.said hm
    exact H.on n d req e
  call := by rw [h.step]; exact H.call
  free := by
    have := H.free
    rw [(h.site n0).users] at this
    exact this
  sole := fun m d req hne hm => by
    obtain ⟨n, rfl, e⟩ := h.said hm
    exact H.sole n d req (fun e2 => hne (by rw [e2])) e
  moves := h.moves H.moves
  serves := fun m q a h1 h2 => by
    obtain ⟨n, hs, -⟩ := h.back m
    exact h.serves (H.serves n q a (by rw [hs.hub]; exact h1) h2)

theorem Stretch.chance_back (h : Stretch b φ ops ψ hist idx) {c ty : Nat} {nm : Str} {job : Job D} {cfg : EnqueueConfig} {n0 : Nat}
    (H : ChanceOn .spec E kind N c ty nm job cfg (idx n0) ψ hist) : ChanceOn b E kind N c ty nm job cfg n0 φ ops where
  polite := fun n o hn => (h.polite n o).2 (H.polite (idx n) o (by rw [h.step]; exact hn))
  on := fun n d req hn => H.on (idx n) d req (by rw [h.step]; exact hn)
  call := by rw [← h.step]; exact H.call
  free := by
    rw [(h.site n0).users]
    exact H.free
  sole := fun n d req hne hn => H.sole (idx n) d req (fun e => hne (Nat.le_antisymm (h.of_le (Nat.le_of_eq e)) (h.of_le (Nat.le_of_eq e.symm))))
    (by rw [h.step]; exact hn)
  moves := h.moves_back H.moves
  serves := fun n q a h1 h2 => by
    rw [(h.site n).hub] at h1
    exact h.serves_back (H.serves (idx n) q a h1 h2)

theorem Stretch.resumes_back (h : Stretch b φ ops ψ hist idx) {k : Str} {ty β : Nat} (H : ResumesOn .spec E kind N k ty β ψ hist) :
    ResumesOn b E kind N k ty β φ ops where
  fits := fun n d req hn => H.fits (idx n) d req (by rw [h.step]; exact hn)
  spares := fun n d req hn => H.spares (idx n) d req (by rw [h.step]; exact hn)
  one := fun n => by
    rw [(h.site n).hub]; exact H.one (idx n)
  up := by
    obtain ⟨m, q, a, h1, h2⟩ := H.up
    obtain ⟨n, hs, -⟩ := h.back m
    exact ⟨n, q, a, by rw [hs.hub]; exact h1, h2⟩
  serves := fun n q a h1 h2 h3 => by
    rw [(h.site n).hub] at h1
    exact h.serves_back (H.serves (idx n) q a h1 h2 h3)

theorem Stretch.resumes (h : Stretch b φ ops ψ hist idx) {k : Str} {ty β : Nat} (H : ResumesOn b E kind N k ty β φ ops) :
    ResumesOn .spec E kind N k ty β ψ hist where
  fits := fun m d req hm => by
    obtain ⟨n, rfl, e⟩ := h.said hm
    exact H.fits n d req e
  spares := fun m d req hm => by
    obtain ⟨n, rfl, e⟩ := h.said hm
    exact H.spares n d req e
  one := fun m => by
    obtain ⟨n, hs, -⟩ := h.back m
    rw [← hs.hub]; exact H.one n
  up := by
    obtain ⟨n, q, a, h1, h2⟩ := H.up
    exact ⟨idx n, q, a, by rw [← (h.site n).hub]; exact h1, h2⟩
  serves := fun m q a h1 h2 h3 => by
    obtain ⟨n, hs, -⟩ := h.back m
    exact h.serves (H.serves n q a (by rw [hs.hub]; exact h1) h2 h3)

end

/-! ## The longer history -/

section
variable (f : Weave D O b.B) (ops : Nat → WeaveOp D O × Nat)

/-- The first steps with the calls that `Weave` adds. -/
def speltTo (E : Nat → Env D) (clk : Nat → Nat → Time) {B : Backend} (f : Weave D O B) (ops : Nat → WeaveOp D O × Nat) : Nat → List (WeaveOp D O)
  | 0 => []
  | n + 1 => speltTo E clk f ops n ++ (afterIn E B clk f ops n).spelt (ops n).1

/-- All steps with the calls that `Weave` adds. -/
def speltOut (E : Nat → Env D) (clk : Nat → Nat → Time) {B : Backend} (f : Weave D O B) (ops : Nat → WeaveOp D O × Nat) (m : Nat) : WeaveOp D O :=
  ((speltTo E clk f ops (m + 1))[m]?).getD (.go 0)

end

section
variable {B : Backend} {f : Weave D O B} {ops : Nat → WeaveOp D O × Nat}

theorem speltTo_prefix {n m : Nat} (h : n ≤ m) : speltTo E clk f ops n <+: speltTo E clk f ops m := by
  induction h with
  | refl => exact List.prefix_refl _
  | step _ ih => exact ih.trans (List.prefix_append _ _)

theorem spelt_cases (f : Weave D O B) (o : WeaveOp D O) :
    f.spelt o = [o] ∨ ∃ q, f.scans o = some q ∧ o = .site (.turn q .tick) ∧ f.spelt o = [o, .go q] := by
  unfold spelt
  cases h : f.scans o with
  | none => exact .inl rfl
  | some q =>
    refine .inr ⟨q, rfl, ?_, rfl⟩
    unfold scans at h
    split at h
    · split at h
      · split at h
        · cases h; rfl
        · cases h
      · cases h
    · cases h

theorem speltTo_succ (n : Nat) : (speltTo E clk f ops (n + 1)).length =
    (speltTo E clk f ops n).length + ((afterIn E B clk f ops n).spelt (ops n).1).length := List.length_append

theorem speltTo_length (n : Nat) : n ≤ (speltTo E clk f ops n).length := by
  induction n with
  | zero => exact Nat.zero_le _
  | succ n ih =>
    rw [speltTo_succ]
    rcases spelt_cases (afterIn E B clk f ops n) (ops n).1 with e | ⟨q, -, -, e⟩ <;> rw [e] <;> simp <;> omega

theorem speltOut_at {n m : Nat} (h : m < (speltTo E clk f ops n).length) : (speltTo E clk f ops n)[m]? = some (speltOut E clk f ops m) := by
  have hl := speltTo_length (E := E) (clk := clk) (f := f) (ops := ops) (m + 1)
  have e : (speltTo E clk f ops n)[m]? = (speltTo E clk f ops (m + 1))[m]? := by
    rcases Nat.le_total n (m + 1) with h2 | h2
    · obtain ⟨t, ht⟩ := speltTo_prefix (E := E) (clk := clk) (f := f) (ops := ops) h2
      rw [← ht, List.getElem?_append_left h]
    · obtain ⟨t, ht⟩ := speltTo_prefix (E := E) (clk := clk) (f := f) (ops := ops) h2
      rw [← ht, List.getElem?_append_left (by omega)]
  rw [e]
  unfold speltOut
  rw [List.getElem?_eq_getElem (by omega)]
  rfl

theorem speltOut_map (n : Nat) : (List.range (speltTo E clk f ops n).length).map (speltOut E clk f ops) = speltTo E clk f ops n := by
  refine List.ext_getElem? fun m => ?_
  by_cases h : m < (speltTo E clk f ops n).length
  · rw [speltOut_at h, List.getElem?_map, List.getElem?_range h]; rfl
  · rw [List.getElem?_eq_none (by simpa using h), List.getElem?_eq_none (by omega)]

end

theorem turn_site {B : Backend} (f : Weave D O B) (q : Nat) (op : Op D O) : (f.step E B clk (.site (.turn q op))).site = f.site := by
  show (f.turn E B q op).site = _
  unfold turn
  split
  · split <;> rfl
  · rfl

theorem turn_none {B : Backend} (f : Weave D O B) (p q : Nat) : (f.step E B clk (.site (.turn p .tick))).inside q = none ↔
    f.inside q = none ∧ (q = p → f.site.hub.queues[p]? = none) := by
  show (f.turn E B p .tick).inside q = none ↔ _
  unfold turn
  split
  · next a e1 e2 =>
    rw [show (if (Op.tick : Op D O).inner = true then _ else f) = _ from if_pos rfl]
    show upd f.inside p _ q = none ↔ _
    unfold upd
    split
    · next e => subst e; rw [e1, e2]; simp
    · next e => simp [e]
  · next e =>
    refine ⟨fun h => ⟨h, fun e2 => ?_⟩, fun h => h.1⟩
    subst e2
    by_contra hc
    obtain ⟨a, ha⟩ := Option.ne_none_iff_exists'.1 hc
    exact e a h ha

theorem turnIn_none {B : Backend} (f : Weave D O B) (p q r : Nat) : (f.stepIn E B clk (.site (.turn p .tick), r)).inside q = none ↔
    f.inside q = none ∧ (q = p → f.site.hub.queues[p]? = none) := by
  show (f.turnIn E B p .tick r).inside q = none ↔ _
  unfold turnIn
  split
  · next a e1 e2 =>
    rw [show (if (Op.tick : Op D O).inner = true then _ else f) = _ from if_pos rfl]
    show upd f.inside p _ q = none ↔ _
    unfold upd
    split
    · next e => subst e; rw [e1, e2]; simp
    · next e => simp [e]
  · next e =>
    refine ⟨fun h => ⟨h, fun e2 => ?_⟩, fun h => h.1⟩
    subst e2
    by_contra hc
    obtain ⟨a, ha⟩ := Option.ne_none_iff_exists'.1 hc
    exact e a h ha

/-- Beginning a tick does the same to the turns in progress, with rounds granted or not. -/
theorem begin_kept {f : Weave D O b.B} {g : Weave D O SpecB} (h : Loose b E clk kind f g) (p q r : Nat) :
    ((f.stepIn E b.B clk (.site (.turn p .tick), r)).inside q = none → f.inside q = none) ∧
    ((f.stepIn E b.B clk (.site (.turn p .tick), r)).inside q = none ↔ (g.step E SpecB clk (.site (.turn p .tick))).inside q = none) := by
  rw [turnIn_none, turn_none, h.site.hub, show g.inside q = none ↔ f.inside q = none from ⟨(Fit.isNone (h.fits q)).2, (Fit.isNone (h.fits q)).1⟩]
  exact ⟨fun h => h.1, Iff.rfl⟩

theorem Known.stretch (L : ∀ ty, (E ty).Lawful) {f : Weave D O b.B} {g : Weave D O SpecB} (h : Known b E clk kind S f g) (ops : Nat → WeaveOp D O × Nat)
    (hr : ∀ n, (afterIn E b.B clk f ops n).Ample E b (ops n)) (ho : ∀ n c req, (ops n).1 = .site (.begin c req) → req.On kind)
    (h1 : ∀ n, (afterIn E b.B clk f ops n).site.hub.engines.length ≤ 1) (hk : ∀ n, ∀ a ∈ (afterIn E b.B clk f ops n).site.hub.queues, S.ok a) :
    ∃ idx, Stretch b (afterIn E b.B clk f ops) (fun n => (ops n).1) (Weave.after E SpecB clk g (speltOut E clk f ops)) (speltOut E clk f ops) idx ∧
      ∀ n, (∀ i, i < n → ∀ p, (ops i).1 ≠ .site (.turn p .tick)) → idx n = n := by
  have hK : ∀ n, Known b E clk kind S (afterIn E b.B clk f ops n) (g.run E SpecB clk (speltTo E clk f ops n)) := by
    intro n
    induction n with
    | zero => exact h
    | succ n ih =>
      show Known b E clk kind S ((afterIn E b.B clk f ops n).stepIn E b.B clk (ops n)) (g.run E SpecB clk (_ ++ _))
      rw [run_append]
      exact ih.step L (ops n) (hr n) (ho n) (h1 (n + 1)) (hk (n + 1))
  have hA : ∀ n, Weave.after E SpecB clk g (speltOut E clk f ops) (speltTo E clk f ops n).length = g.run E SpecB clk (speltTo E clk f ops n) := by
    intro n
    rw [after_run, speltOut_map]
  have hS : ∀ n i, i < ((afterIn E b.B clk f ops n).spelt (ops n).1).length →
      ((afterIn E b.B clk f ops n).spelt (ops n).1)[i]? = some (speltOut E clk f ops ((speltTo E clk f ops n).length + i)) := by
    intro n i hi
    have e := speltOut_at (E := E) (clk := clk) (f := f) (ops := ops) (n := n + 1) (m := (speltTo E clk f ops n).length + i)
      (by rw [speltTo_succ]; omega)
    rw [← e]
    show _ = (_ ++ _)[_]?
    rw [List.getElem?_append_right (by omega), Nat.add_sub_cancel_left]
  have hs : ∀ n, speltOut E clk f ops (speltTo E clk f ops n).length = (ops n).1 := by
    intro n
    have := hS n 0 (by rcases spelt_cases (afterIn E b.B clk f ops n) (ops n).1 with e | ⟨q, -, -, e⟩ <;> rw [e] <;> simp)
    rcases spelt_cases (afterIn E b.B clk f ops n) (ops n).1 with e | ⟨q, -, -, e⟩ <;> rw [e] at this <;> simpa using this.symm
  refine ⟨fun n => (speltTo E clk f ops n).length, ⟨rfl, fun n => ?_, hs, fun n => ?_, fun n q => ?_, fun n q he => ?_⟩, fun n hn => ?_⟩
  · rcases spelt_cases (afterIn E b.B clk f ops n) (ops n).1 with e | ⟨q, -, eo, e⟩
    · left
      rw [speltTo_succ, e]; rfl
    · right
      refine ⟨?_, ⟨q, ?_⟩, ⟨q, eo⟩, ?_⟩
      · rw [speltTo_succ, e]; rfl
      · have := hS n 1 (by rw [e]; simp)
        rw [e] at this
        simpa using this.symm
      · show (Weave.step E SpecB clk (Weave.after E SpecB clk g (speltOut E clk f ops) (speltTo E clk f ops n).length) (speltOut E clk f ops (speltTo E clk f ops n).length)).site = _
        rw [hs, eo, turn_site]
  · rw [hA]; exact (hK n).loose.site
  · rw [hA]; exact Fit.head ((hK n).loose.fits q)
  · rcases spelt_cases (afterIn E b.B clk f ops n) (ops n).1 with e | ⟨p, -, eo, e⟩
    · rw [speltTo_succ, e] at he
      simp at he
    · show (((afterIn E b.B clk f ops n).stepIn E b.B clk (ops n)).inside q = none → _) ∧ (((afterIn E b.B clk f ops n).stepIn E b.B clk (ops n)).inside q = none ↔
        (Weave.step E SpecB clk (Weave.after E SpecB clk g (speltOut E clk f ops) (speltTo E clk f ops n).length) (speltOut E clk f ops (speltTo E clk f ops n).length)).inside q = none)
      rw [hs, hA, show ops n = (.site (.turn p .tick), (ops n).2) from Prod.ext eo rfl]
      exact begin_kept (hK n).loose p q _
  · induction n with
    | zero => rfl
    | succ n ih =>
      dsimp only at ih ⊢
      rw [speltTo_succ, ih fun i hi => hn i (by omega)]
      rcases spelt_cases (afterIn E b.B clk f ops n) (ops n).1 with e | ⟨q, -, eo, e⟩
      · rw [e]; rfl
      · exact absurd eo (hn n (Nat.lt_succ_self n) q)

theorem Loose.scans_eq {f : Weave D O b.B} {g : Weave D O SpecB} (h : Loose b E clk kind f g) (o : WeaveOp D O) : f.scans o = g.scans o := by
  unfold scans
  split
  · next q =>
    rw [h.site.hub, h.site.boxes]
    have := Fit.isNone (h.fits q)
    cases hf : f.inside q with
    | none => rw [this.1 hf]
    | some x =>
      cases hg : g.inside q with
      | none => rw [this.2 hg] at hf; cases hf
      | some y => rfl
  · rfl

theorem Loose.spelt_eq {f : Weave D O b.B} {g : Weave D O SpecB} (h : Loose b E clk kind f g) (o : WeaveOp D O) : f.spelt o = g.spelt o := by
  unfold spelt
  rw [h.scans_eq]

/-- One more round than there are queued entries. -/
def enough (E : Nat → Env D) (b : Impl) (f : Weave D O b.B) (o : WeaveOp D O) : Nat := match f.scans o with
  | none => 0
  | some q => match f.site.hub.queues[q]? with
    | none => 0
    | some a => ((f.site.snap b E q a).lists .queued).length + 1

theorem enough_ample (f : Weave D O b.B) (o : WeaveOp D O) : f.Ample E b (o, enough E b f o) := by
  intro q a h1 h2
  have h1 : f.scans o = some q := h1
  show _ < enough E b f o
  unfold enough
  rw [h1]
  dsimp only
  rw [h2]
  exact Nat.lt_succ_self _

/-- Where the steps of a history in which the calls that `Weave` adds come at once are found. -/
def places (E : Nat → Env D) (clk : Nat → Nat → Time) (g : Weave D O SpecB) (hist : Nat → WeaveOp D O) : Nat → Nat
  | 0 => 0
  | n + 1 => places E clk g hist n + ((Weave.after E SpecB clk g hist (places E clk g hist n)).spelt (hist (places E clk g hist n))).length

theorem Known.shrink (L : ∀ ty, (E ty).Lawful) {f : Weave D O b.B} {g : Weave D O SpecB} (h : Known b E clk kind S f g) (hist : Nat → WeaveOp D O)
    (hp : g.Prompt E clk hist) (ho : ∀ n c req, hist n = .site (.begin c req) → req.On kind)
    (h1 : ∀ n, (Weave.after E SpecB clk g hist n).site.hub.engines.length ≤ 1) (hk : ∀ n, ∀ a ∈ (Weave.after E SpecB clk g hist n).site.hub.queues, S.ok a) :
    let ops := fun n => (hist (places E clk g hist n), enough E .spec (Weave.after E SpecB clk g hist (places E clk g hist n)) (hist (places E clk g hist n)))
    (∀ n, (afterIn E b.B clk f ops n).Ample E b (ops n)) ∧
    Stretch b (afterIn E b.B clk f ops) (fun n => (ops n).1) (Weave.after E SpecB clk g hist) hist (places E clk g hist) := by
  intro ops
  have hR : ∀ n, (Weave.after E SpecB clk g hist (places E clk g hist n)).run E SpecB clk
      ((Weave.after E SpecB clk g hist (places E clk g hist n)).spelt (ops n).1) = Weave.after E SpecB clk g hist (places E clk g hist (n + 1)) := by
    intro n
    show _ = Weave.after E SpecB clk g hist (places E clk g hist n + (spelt _ (ops n).1).length)
    rcases spelt_cases (Weave.after E SpecB clk g hist (places E clk g hist n)) (ops n).1 with e | ⟨q, e1, -, e⟩
    · rw [e]; rfl
    · rw [e]
      show ((Weave.after E SpecB clk g hist (places E clk g hist n)).step E SpecB clk (hist (places E clk g hist n))).step E SpecB clk (.go q) =
        ((Weave.after E SpecB clk g hist (places E clk g hist n)).step E SpecB clk (hist (places E clk g hist n))).step E SpecB clk
          (hist (places E clk g hist n + 1))
      rw [hp _ q e1]
  have hA : ∀ n, Loose b E clk kind (afterIn E b.B clk f ops n) (Weave.after E SpecB clk g hist (places E clk g hist n)) →
      (afterIn E b.B clk f ops n).Ample E b (ops n) := by
    intro n hl q a h2 h3
    have h2 : (afterIn E b.B clk f ops n).scans (ops n).1 = some q := h2
    rw [hl.scans_eq] at h2
    rw [hl.site.hub] at h3
    rw [Site.snap_rel hl.site]
    exact enough_ample (b := .spec) (E := E) (Weave.after E SpecB clk g hist (places E clk g hist n)) (hist (places E clk g hist n)) q a h2 h3
  have hK : ∀ n, Known b E clk kind S (afterIn E b.B clk f ops n) (Weave.after E SpecB clk g hist (places E clk g hist n)) := by
    intro n
    induction n with
    | zero => exact h
    | succ n ih =>
      have := ih.step' L (ops n) (hA n ih.loose) (ho _) (h1 _) (by rw [ih.loose.spelt_eq, hR]; exact h1 _) (by rw [ih.loose.spelt_eq, hR]; exact hk _)
      rw [ih.loose.spelt_eq, hR] at this
      exact this
  refine ⟨fun n => hA n (hK n).loose, rfl, fun n => ?_, fun n => rfl, fun n => (hK n).loose.site, fun n q => ?_, fun n q he => ?_⟩
  · show places E clk g hist n + (spelt _ (ops n).1).length = _ ∨ (places E clk g hist n + (spelt _ (ops n).1).length = _ ∧ _)
    rcases spelt_cases (Weave.after E SpecB clk g hist (places E clk g hist n)) (ops n).1 with e | ⟨q, e1, e2, e⟩
    · left; rw [e]; rfl
    · right
      refine ⟨by rw [e]; rfl, ⟨q, hp _ q e1⟩, ⟨q, e2⟩, ?_⟩
      show (Weave.step E SpecB clk (Weave.after E SpecB clk g hist (places E clk g hist n)) (ops n).1).site = _
      rw [e2, turn_site]
  · exact Fit.head ((hK n).loose.fits q)
  · rcases spelt_cases (Weave.after E SpecB clk g hist (places E clk g hist n)) (ops n).1 with e | ⟨p, e1, e2, e⟩
    · have he : places E clk g hist n + (spelt _ (ops n).1).length = _ := he
      rw [e] at he
      simp at he
    · show (((afterIn E b.B clk f ops n).stepIn E b.B clk (ops n)).inside q = none → _) ∧ (((afterIn E b.B clk f ops n).stepIn E b.B clk (ops n)).inside q = none ↔
        (Weave.step E SpecB clk (Weave.after E SpecB clk g hist (places E clk g hist n)) (ops n).1).inside q = none)
      rw [e2, show ops n = (.site (.turn p .tick), (ops n).2) from Prod.ext e2 rfl]
      exact begin_kept (hK n).loose p q _

/-- The registry stays orderly. -/
theorem orderly_stepIn (hN : ∀ a b, N a = N b → a = b) {B : Backend} {f : Weave D O B} {G : Engine} (ho : f.site.hub.Orderly N G) (o : WeaveOp D O × Nat)
    (hp : ∀ o', o.1 = .site o' → o'.Polite N f.site) : ∃ G', (f.stepIn E B clk o).site.hub.Orderly N G' := by
  rcases stepIn_hub (E := E) (clk := clk) f o with e | ⟨op, e1, e2, e3⟩
  · rw [e]; exact ⟨G, ho⟩
  · rw [e3, e1, step_plain e2]
    exact Site.orderly_step hN ho op (hp op e1)

theorem orderly_afterIn (hN : ∀ a b, N a = N b → a = b) {B : Backend} {f : Weave D O B} {ops : Nat → WeaveOp D O × Nat} {n0 : Nat} {G : Engine}
    (ho : (afterIn E B clk f ops n0).site.hub.Orderly N G)
    (hp : ∀ n o, n0 ≤ n → (ops n).1 = .site o → o.Polite N (afterIn E B clk f ops n).site) {n : Nat} (hn : n0 ≤ n) :
    ∃ G', (afterIn E B clk f ops n).site.hub.Orderly N G' := by
  induction hn with
  | refl => exact ⟨G, ho⟩
  | @step m hm ih =>
    obtain ⟨G', h⟩ := ih
    exact orderly_stepIn hN h (ops m) fun o' => hp m o' hm

theorem spelled_stepIn {P : Nat → Str → Prop} {B : Backend} {f : Weave D O B} (h : f.site.hub.Spelled P) (o : WeaveOp D O × Nat)
    (ho : ∀ c req, o.1 = .site (.begin c req) → req.call.Spells P) : (f.stepIn E B clk o).site.hub.Spelled P := by
  rcases stepIn_hub (E := E) (clk := clk) f o with e | ⟨op, e1, e2, e3⟩
  · rw [e]; exact h
  · rw [e3, e1, step_plain e2]
    exact Site.spelled_step h op fun c req e => ho c req (by rw [e1, e])

theorem spelled_runIn {P : Nat → Str → Prop} {B : Backend} {f : Weave D O B} (h : f.site.hub.Spelled P) (ops : List (WeaveOp D O × Nat))
    (ho : ∀ c req n, (.site (.begin c req), n) ∈ ops → req.call.Spells P) : (f.runIn E B clk ops).site.hub.Spelled P := by
  induction ops generalizing f with
  | nil => exact h
  | cons o ops ih =>
    refine ih (f := f.stepIn E B clk o) (spelled_stepIn h o fun c req e => ho c req o.2 ?_) fun c req n hm => ho c req n (List.mem_cons_of_mem _ hm)
    rw [← e]
    exact List.mem_cons_self ..

theorem spells_named {req : Req D} (h : req.Named N) : req.call.Spells fun ty n => n = N ty := by
  cases req with
  | submit => exact h
  | update => exact fun _ => h
  | _ => trivial

theorem spelled_afterIn {P : Nat → Str → Prop} {B : Backend} {f : Weave D O B} (h : f.site.hub.Spelled P) {ops : Nat → WeaveOp D O × Nat}
    (ho : ∀ n c req, (ops n).1 = .site (.begin c req) → req.call.Spells P) (n : Nat) : (afterIn E B clk f ops n).site.hub.Spelled P := by
  induction n with
  | zero => exact h
  | succ n ih => exact spelled_stepIn ih (ops n) (ho n)

/-- The beginning of a process. -/
theorem known_init {s : Nat → b.B.S} {s' : Nat → SpecState} (h : ∀ β, b.sim.R (s β) (s' β))
    (hS : ∀ a, S.ok a → SamePart a.name (kind · = a.ty) (s' a.backend) (S.start a)) :
    Known b E clk kind S (init b.B s : Weave D O b.B) (init SpecB s') :=
  ⟨⟨⟨rfl, rfl, h, rfl, rfl⟩, fun _ => .none⟩, ⟨_, pairFrom_init hS⟩, fun _ _ h => (by cases h)⟩

/-- The calls that are added do not depend on the rounds granted. -/
theorem spelling_eq (L : ∀ ty, (E ty).Lawful) {f f' : Weave D O b.B} {g : Weave D O SpecB} (h : Known b E clk kind S f g) (h' : Known b E clk kind S f' g)
    (ops ops' : List (WeaveOp D O × Nat)) (e : ops.map Prod.fst = ops'.map Prod.fst) (hr : f.AllAmple E clk b ops) (hr' : f'.AllAmple E clk b ops')
    (ho : ∀ c req n, (.site (.begin c req), n) ∈ ops → req.On kind) (h1 : (f.runIn E b.B clk ops).site.hub.engines.length ≤ 1)
    (hk : ∀ a ∈ (f.runIn E b.B clk ops).site.hub.queues, S.ok a) :
    f.spelling E clk ops = f'.spelling E clk ops' ∧ Known b E clk kind S (f'.runIn E b.B clk ops') (g.run E SpecB clk (f.spelling E clk ops)) := by
  induction ops generalizing f f' g ops' with
  | nil =>
    cases ops' with
    | nil => exact ⟨rfl, h'⟩
    | cons => cases e
  | cons o ops ih =>
    cases ops' with
    | nil => cases e
    | cons o' ops' =>
      obtain ⟨e1, e2⟩ := List.cons.inj e
      obtain ⟨m1, m2⟩ := runIn_more (E := E) (clk := clk) ops (f.stepIn E b.B clk o)
      have h1' := Nat.le_trans m1 h1
      have k1 := h.step L o hr.1 (fun c req e => ho c req o.2 (by rw [← e]; exact List.mem_cons_self ..)) h1' fun a ha => hk a (m2 a ha)
      have es : f.spelt o.1 = f'.spelt o'.1 := by rw [h.loose.spelt_eq, h'.loose.spelt_eq, e1]
      have k2 := h'.step' L o' hr'.1 (fun c req e => ho c req o.2 (by rw [← e, ← e1]; exact List.mem_cons_self ..))
        (by rw [← h.loose.site.hub]; exact Nat.le_trans (stepIn_more f o).1 h1')
        (by rw [← es, ← k1.loose.site.hub]; exact h1') (by rw [← es, ← k1.loose.site.hub]; exact fun a ha => hk a (m2 a ha))
      rw [← es] at k2
      obtain ⟨g1, g2⟩ := ih k1 k2 ops' e2 hr.2 hr'.2 (fun c req n hm => ho c req n (List.mem_cons_of_mem _ hm)) h1 hk
      constructor
      · show f.spelt o.1 ++ _ = f'.spelt o'.1 ++ _
        rw [es, g1]
      · show Known b E clk kind S _ (g.run E SpecB clk (f.spelt o.1 ++ _))
        rw [run_append]
        exact g2

/-- What is related to the same process cannot be told apart. -/
theorem Known.same_rel {f h : Weave D O b.B} {g : Weave D O SpecB} (hf : Known b E clk kind S f g) (hh : Rel b h g) : Same b E f h where
  hub := hf.loose.site.hub.trans hh.site.hub.symm
  boxes := hf.loose.site.boxes.trans hh.site.boxes.symm
  users := hf.loose.site.users.trans hh.site.users.symm
  trace := hf.loose.site.trace.trans hh.site.trace.symm
  snap := fun q a => (Site.snap_rel hf.loose.site q a).trans (Site.snap_rel hh.site q a).symm
  inside := fun q => by rw [hh.inside]; exact Fit.head (hf.loose.fits q)

theorem Known.same {f f' : Weave D O b.B} {g : Weave D O SpecB} (h : Known b E clk kind S f g) (h' : Known b E clk kind S f' g) : Same b E f f' where
  hub := h.loose.site.hub.trans h'.loose.site.hub.symm
  boxes := h.loose.site.boxes.trans h'.loose.site.boxes.symm
  users := h.loose.site.users.trans h'.loose.site.users.symm
  trace := h.loose.site.trace.trans h'.loose.site.trace.symm
  snap := fun q a => (Site.snap_rel h.loose.site q a).trans (Site.snap_rel h'.loose.site q a).symm
  inside := fun q => (Fit.head (h.loose.fits q)).trans (Fit.head (h'.loose.fits q)).symm

end Weave

namespace BootIn
open Boot
variable {D O : Type} {E : Nat → Env D} {kind : Str → Nat} {b : Impl} {N : Nat → Str}

theorem mem_spelling {clk : Nat → Nat → Time} {B : Backend} {f : Weave D O B} {ops : List (WeaveOp D O × Nat)} {c : Nat} {req : Req D}
    (h : .site (.begin c req) ∈ f.spelling E clk ops) : ∃ n, (.site (.begin c req), n) ∈ ops := by
  induction ops generalizing f with
  | nil => cases h
  | cons o ops ih =>
    rcases List.mem_append.1 h with h | h
    · exact ⟨o.2, by rw [← Weave.mem_spelt h]; exact List.mem_cons_self ..⟩
    · obtain ⟨n, hn⟩ := ih h
      exact ⟨n, List.mem_cons_of_mem _ hn⟩

/-- What earlier processes leave, they leave with the calls that `Weave` adds. -/
theorem counted_rel (L : ∀ ty, (E ty).Lawful) (hN : ∀ i j, N i = N j → i = j) (ls : List (BootIn D O)) (hfit : ∀ l ∈ ls, l.Fit kind N)
    {s0 : QueueActor → Sys D SpecB} {s : Nat → b.B.S} {s' : Nat → SpecState} (h : ∀ β, b.sim.R (s β) (s' β))
    (h1 : Lone E b.B s ls) (ha : Ample E b s ls) (hs : ∀ a : QueueActor, a.name = N a.ty → ∃ x, Standing (O := O) E kind N free s0 s' a x) :
    (∀ β, b.sim.R (BootIn.leave E b.B s ls β) (Boot.leave E SpecB s' (counted E b.B s ls) β)) ∧ Boot.Lone E SpecB s' (counted E b.B s ls) ∧
      ∀ l ∈ counted E b.B s ls, l.Fit kind N := by
  induction ls generalizing s s' with
  | nil => exact ⟨h, trivial, fun _ h => (by cases h)⟩
  | cons l ls ih =>
    obtain ⟨S, hok, hS⟩ := base_of hs
    have hl := hfit l (List.mem_cons_self ..)
    have k := (Weave.known_init (b := b) (O := O) (clk := l.clk) h fun a ha => (hS a ha).part).run L l.ops ha.1 (fun c req n hm => (hl c req n hm).1) h1.1
      (fun a hm => (hok a).2 ((Weave.spelled_runIn (P := fun ty n => n = N ty) Hub.spelled_init l.ops
        fun c req n hm => Weave.spells_named (hl c req n hm).2).queues a hm))
    have hf : Boot.Fit kind N ⟨l.clk, (Weave.init b.B s).spelling E l.clk l.ops⟩ := fun c req hm => by
      obtain ⟨n, hn⟩ := mem_spelling hm
      exact hl c req n hn
    have h1' : ((⟨l.clk, (Weave.init b.B s).spelling E l.clk l.ops⟩ : Boot D O).last E SpecB s').site.hub.engines.length ≤ 1 :=
      Nat.le_trans (Nat.le_of_eq (congrArg (fun x : Hub => x.engines.length) k.loose.site.hub.symm)) h1.1
    obtain ⟨g1, g2, g3⟩ := ih (fun l hm => hfit l (List.mem_cons_of_mem _ hm)) k.loose.site.stores h1.2 ha.2
      (standing L hN [⟨l.clk, (Weave.init b.B s).spelling E l.clk l.ops⟩] (fun l' hm => by rw [List.mem_singleton.1 hm]; exact hf) ⟨h1', trivial⟩ (begins_free ..) hs)
    refine ⟨g1, ⟨h1', g2⟩, fun l' hm => ?_⟩
    rcases List.mem_cons.1 hm with rfl | hm
    · exact hf
    · exact g3 l' hm

end BootIn
end AJ
