import Verif.Proofs.Json
import Verif.Spec.Codec

/-! # The storage format of jobs reads back -/

namespace AJ
open Json

/-- A user's data format that keeps data: reading back gives `norm d`, read data can be written again
unchanged, and the JSON is well-formed and leaves room for the recursion limit of `serde_json`. -/
structure DataCodec.Lawful {D : Type} (dc : DataCodec D) where
  norm : D → D
  wf : ∀ d j, dc.enc d = some j → j.WF
  depth : ∀ d j, dc.enc d = some j → j.depth ≤ 126
  roundtrip : ∀ d j, dc.enc d = some j → dc.dec j = some (norm d)
  decoded_norm : ∀ j d, dc.dec j = some d → norm d = d
  decoded_enc : ∀ j d, dc.dec j = some d → (dc.enc d).isSome = true

theorem decTime_encTime (t : Time) : decTime (encTime t) = some (floorUs t) := by
  simp [decTime, encTime, asInt_int, floorUs]

theorem durMicros_mul (n : Int) : durMicros (n * nsPerUs) = n := by
  unfold durMicros nsPerUs
  split <;> omega

theorem durMicros_round (d : Dur) : durMicros d * nsPerUs = roundUs d := by
  unfold durMicros roundUs
  split
  · rfl
  · exact Int.neg_mul ..

theorem decDur_encDur {d : Dur} {j : Json} (h : encDur d = some j) : decDur j = some (roundUs d) := by
  unfold encDur at h
  split at h
  · next hf => cases h; simp [decDur, asInt_int, hf, durMicros_round]
  · cases h

theorem decDur_norm {j : Json} {d : Dur} (h : decDur j = some d) :
    roundUs d = d ∧ (encDur d).isSome = true := by
  unfold decDur at h
  split at h
  · split at h
    · next n _ hf =>
      cases h
      refine ⟨by rw [← durMicros_round, durMicros_mul], ?_⟩
      simp [encDur, durMicros_mul, hf]
    · cases h
  · cases h

theorem decStrategy_enc {s : RetryStrategy} {j : Json} (h : encStrategy s = some j) :
    decStrategy j = some s.norm := by
  cases s with
  | interval d =>
    simp only [encStrategy, Option.map_eq_some_iff] at h
    obtain ⟨j', h1, rfl⟩ := h
    show (decDur j').map RetryStrategy.interval = _
    rw [decDur_encDur h1]; rfl
  | exponentialBackoff d =>
    simp only [encStrategy, Option.map_eq_some_iff] at h
    obtain ⟨j', h1, rfl⟩ := h
    show (decDur j').map RetryStrategy.exponentialBackoff = _
    rw [decDur_encDur h1]; rfl

theorem decStrategy_norm {j : Json} {s : RetryStrategy} (h : decStrategy j = some s) :
    s.norm = s ∧ (encStrategy s).isSome = true := by
  unfold decStrategy at h
  split at h
  · split at h
    · simp only [Option.map_eq_some_iff] at h
      obtain ⟨d, h1, rfl⟩ := h
      obtain ⟨h2, h3⟩ := decDur_norm h1
      exact ⟨by simp [RetryStrategy.norm, h2], by simp [encStrategy, h3]⟩
    · split at h
      · simp only [Option.map_eq_some_iff] at h
        obtain ⟨d, h1, rfl⟩ := h
        obtain ⟨h2, h3⟩ := decDur_norm h1
        exact ⟨by simp [RetryStrategy.norm, h2], by simp [encStrategy, h3]⟩
      · cases h
  · cases h

theorem optField_int (l : List (Str × Json)) (k : Str) (o : Option Int)
    (h : field l k = some (some (ofOpt .int o))) : optField asInt l k = some o := by
  unfold optField
  rw [h]
  cases o with
  | none => rfl
  | some z =>
    show opt asInt (.int z) = _
    have : opt asInt (.int z) = ((Json.int z).asInt).map some := rfl
    rw [this, asInt_int]; rfl

theorem decRetry_enc {r : Retry} {j : Json} (h : encRetry r = some j) : decRetry j = some r.norm := by
  simp only [encRetry, Option.map_eq_some_iff] at h
  obtain ⟨s, h1, rfl⟩ := h
  have e1 : ∀ a b : Json, req [(c!"retried_times", a), (c!"max_retries", b), (c!"strategy", s)] c!"retried_times"
    = some a := fun _ _ => rfl
  have e2 : ∀ a b : Json, field [(c!"retried_times", a), (c!"max_retries", b), (c!"strategy", s)] c!"max_retries"
    = some (some b) := fun _ _ => rfl
  have e3 : ∀ a b : Json, req [(c!"retried_times", a), (c!"max_retries", b), (c!"strategy", s)] c!"strategy"
    = some s := fun _ _ => rfl
  simp only [decRetry, e1, e3, asInt_int, optField_int _ _ _ (e2 _ _), decStrategy_enc h1, Option.bind_eq_bind,
    Option.bind_some]
  rfl

theorem decRetry_norm {j : Json} {r : Retry} (h : decRetry j = some r) :
    r.norm = r ∧ (encRetry r).isSome = true := by
  unfold decRetry at h
  split at h
  · simp only [Option.bind_eq_bind, Option.bind_eq_some_iff] at h
    obtain ⟨_, _, n, _, m, _, _, _, s, hs, h⟩ := h
    cases h
    obtain ⟨h1, h2⟩ := decStrategy_norm hs
    refine ⟨by simp [Retry.norm, h1], by simp [encRetry, h2]⟩
  · cases h

theorem opt_time (o : Option Time) : opt decTime (ofOpt encTime o) = some (o.map floorUs) := by
  cases o with
  | none => rfl
  | some t =>
    have : opt decTime (ofOpt encTime (some t)) = (decTime (encTime t)).map some := rfl
    rw [this, decTime_encTime]; rfl

theorem decCronContext_enc (c : CronContext) : decCronContext (encCronContext c) = some c.norm := by
  have e1 : ∀ a b d : Json, req [(c!"tick_number", a), (c!"max_repeat", b), (c!"end_at", d)] c!"tick_number"
    = some a := fun _ _ _ => rfl
  have e2 : ∀ a b d : Json, field [(c!"tick_number", a), (c!"max_repeat", b), (c!"end_at", d)] c!"max_repeat"
    = some (some b) := fun _ _ _ => rfl
  have e3 : ∀ a b d : Json, req [(c!"tick_number", a), (c!"max_repeat", b), (c!"end_at", d)] c!"end_at"
    = some d := fun _ _ _ => rfl
  simp only [encCronContext, decCronContext, e1, e3, asInt_int, optField_int _ _ _ (e2 _ _ _), opt_time,
    Option.bind_eq_bind, Option.bind_some]
  rfl

theorem decTime_norm {j : Json} {t : Time} (h : decTime j = some t) : floorUs t = t := by
  simp only [decTime, Option.map_eq_some_iff] at h
  obtain ⟨n, _, rfl⟩ := h
  show n * nsPerUs / nsPerUs * nsPerUs = n * nsPerUs
  rw [Int.mul_ediv_cancel _ (by decide)]

theorem decCronContext_norm {j : Json} {c : CronContext} (h : decCronContext j = some c) : c.norm = c := by
  unfold decCronContext at h
  split at h
  · simp only [Option.bind_eq_bind, Option.bind_eq_some_iff] at h
    obtain ⟨_, _, n, _, m, _, _, _, e, he, h⟩ := h
    cases h
    unfold opt at he
    split at he
    · cases he; rfl
    · simp only [Option.map_eq_some_iff] at he
      obtain ⟨t, ht, rfl⟩ := he
      simp [CronContext.norm, decTime_norm ht]
  · cases h

theorem decJobType_enc (t : JobType) : decJobType (encJobType t) = some t.norm := by
  cases t with
  | normal => rfl
  | scheduledAt t =>
    show (decTime (encTime t)).map JobType.scheduledAt = _
    rw [decTime_encTime]; rfl
  | cron e n k c =>
    show decCron [.str e, encTime n, .int k, encCronContext c] = _
    simp only [decCron, asStr, decTime_encTime, asInt_int, decCronContext_enc, Option.bind_eq_bind,
      Option.bind_some]
    rfl

theorem decJobType_norm {j : Json} {t : JobType} (h : decJobType j = some t) : t.norm = t := by
  unfold decJobType at h
  split at h
  · split at h <;> cases h; rfl
  · split at h
    · split at h <;> cases h; rfl
    · split at h
      · simp only [Option.map_eq_some_iff] at h
        obtain ⟨t, ht, rfl⟩ := h
        simp [JobType.norm, decTime_norm ht]
      · split at h
        · split at h
          · unfold decCron at h
            split at h
            · simp only [Option.bind_eq_bind, Option.bind_eq_some_iff] at h
              obtain ⟨_, _, t, ht, h⟩ := h
              cases h
              simp [JobType.norm, decTime_norm ht, CronContext.norm]
            · simp only [Option.bind_eq_bind, Option.bind_eq_some_iff] at h
              obtain ⟨_, _, t, ht, _, _, h⟩ := h
              cases h
              simp [JobType.norm, decTime_norm ht, CronContext.norm]
            · simp only [Option.bind_eq_bind, Option.bind_eq_some_iff] at h
              obtain ⟨_, _, t, ht, _, _, c, hc, h⟩ := h
              cases h
              simp [JobType.norm, decTime_norm ht, decCronContext_norm hc]
            · cases h
          · cases h
        · cases h
  · cases h

theorem decStatus_enc (s : JobStatus) : decStatus (encStatus s) = some s := by cases s <;> rfl

theorem asNat_int (n : Nat) : asNat (.int n) = some n := by
  simp [asNat, asInt_int]

theorem optField_retry (l : List (Str × Json)) (k : Str) (o : Option Retry) (j : Json)
    (hj : encRetryOpt o = some j) (h : field l k = some (some j)) :
    optField decRetry l k = some (o.map Retry.norm) := by
  unfold optField
  rw [h]
  cases o with
  | none => cases hj; rfl
  | some r =>
    have hj' : encRetry r = some j := hj
    have h1 := decRetry_enc hj'
    have : opt decRetry j = (decRetry j).map some := by
      cases j with
      | null => cases h1
      | _ => rfl
    show opt decRetry j = _
    rw [this, h1]; rfl

/-- Fields of a context in the order in which they are written. -/
def ctxFields (a b c d e f g h i k : Json) : List (Str × Json) :=
  [(c!"job_id", a), (c!"job_type", b), (c!"job_status", c), (c!"retry", d), (c!"created_at", e),
    (c!"enqueue_at", f), (c!"run_at", g), (c!"complete_at", h), (c!"cancel_at", i), (c!"run_count", k)]

section
variable (a b c d e f g h i k : Json)
theorem cf1 : field (ctxFields a b c d e f g h i k) c!"job_id" = some (some a) := rfl
theorem cf2 : req (ctxFields a b c d e f g h i k) c!"job_type" = some b := rfl
theorem cf3 : req (ctxFields a b c d e f g h i k) c!"job_status" = some c := rfl
theorem cf4 : field (ctxFields a b c d e f g h i k) c!"retry" = some (some d) := rfl
theorem cf5 : req (ctxFields a b c d e f g h i k) c!"created_at" = some e := rfl
theorem cf6 : field (ctxFields a b c d e f g h i k) c!"enqueue_at" = some (some f) := rfl
theorem cf7 : field (ctxFields a b c d e f g h i k) c!"run_at" = some (some g) := rfl
theorem cf8 : field (ctxFields a b c d e f g h i k) c!"complete_at" = some (some h) := rfl
theorem cf9 : field (ctxFields a b c d e f g h i k) c!"cancel_at" = some (some i) := rfl
theorem cf10 : req (ctxFields a b c d e f g h i k) c!"run_count" = some k := rfl
end

theorem decContext_enc {c : JobContext} {j : Json} (h : encContext c = some j) :
    decContext j = some c.norm := by
  simp only [encContext, Option.map_eq_some_iff] at h
  obtain ⟨r, hr, rfl⟩ := h
  show decContext (.obj (ctxFields _ _ _ _ _ _ _ _ _ _)) = _
  simp only [decContext, cf1, cf2, cf3, cf5, cf10, asStr, decJobType_enc, decStatus_enc, asInt_int,
    optField_retry _ _ _ _ hr (cf4 _ _ _ _ _ _ _ _ _ _), optField_int _ _ _ (cf6 _ _ _ _ _ _ _ _ _ _),
    optField_int _ _ _ (cf7 _ _ _ _ _ _ _ _ _ _), optField_int _ _ _ (cf8 _ _ _ _ _ _ _ _ _ _),
    optField_int _ _ _ (cf9 _ _ _ _ _ _ _ _ _ _), asNat_int, Option.bind_eq_bind, Option.bind_some]
  rfl

theorem encContext_some {c : JobContext} (h : (encRetryOpt c.retry).isSome = true) :
    (encContext c).isSome = true := by simp [encContext, h]

theorem decContext_norm {j : Json} {c : JobContext} (h : decContext j = some c) :
    c.norm = c ∧ (encRetryOpt c.retry).isSome = true := by
  unfold decContext at h
  split at h
  · simp only [Option.bind_eq_bind, Option.bind_eq_some_iff] at h
    obtain ⟨_, _, _, _, ty, hty, _, _, st, _, r, hr, _, _, _, _, _, _, _, _, _, _, _, _, _, _, _, _, h⟩ := h
    cases h
    unfold optField at hr
    have key : r.map Retry.norm = r ∧ (encRetryOpt r).isSome = true := by
      split at hr
      · cases hr
      · cases hr; exact ⟨rfl, rfl⟩
      · unfold opt at hr
        split at hr
        · cases hr; exact ⟨rfl, rfl⟩
        · simp only [Option.map_eq_some_iff] at hr
          obtain ⟨r, hr, rfl⟩ := hr
          obtain ⟨h1, h2⟩ := decRetry_norm hr
          exact ⟨by simp [h1], h2⟩
    exact ⟨by simp [JobContext.norm, decJobType_norm hty, key.1], key.2⟩
  · cases h

/-! ## Well-formedness and nesting of what is written -/

theorem WF_ofOpt {α : Type} {f : α → Json} (hf : ∀ a, WF (f a)) (o : Option α) : WF (ofOpt f o) := by
  cases o with
  | none => trivial
  | some a => exact hf a

theorem depth_ofOpt {α : Type} {f : α → Json} (hf : ∀ a, (f a).depth = 0) (o : Option α) :
    (ofOpt f o).depth = 0 := by
  cases o with
  | none => rfl
  | some a => exact hf a

theorem WF_encJobType (t : JobType) : WF (encJobType t) ∧ (encJobType t).depth ≤ 3 := by
  cases t with
  | normal => exact ⟨trivial, by decide⟩
  | scheduledAt t =>
    exact ⟨⟨WF_int _, trivial⟩, by simp [encJobType, encTime, depth, depthm]⟩
  | cron e n k c =>
    refine ⟨⟨⟨trivial, WF_int _, WF_int _, ⟨WF_int _, WF_ofOpt WF_int _, WF_ofOpt (fun _ => WF_int _) _, trivial⟩,
      trivial⟩, trivial⟩, ?_⟩
    simp [encJobType, encCronContext, encTime, depth, depthm, depths, depth_ofOpt (f := encTime) (fun _ => rfl),
      depth_ofOpt (f := Json.int) (fun _ => rfl)]

theorem WF_encStatus (s : JobStatus) : WF (encStatus s) ∧ (encStatus s).depth = 0 := by
  cases s <;> exact ⟨trivial, rfl⟩

theorem WF_encStrategy {s : RetryStrategy} {j : Json} (h : encStrategy s = some j) :
    WF j ∧ j.depth = 1 := by
  have hd : ∀ {d : Dur} {j : Json}, encDur d = some j → WF j ∧ j.depth = 0 := by
    intro d j h
    unfold encDur at h
    split at h
    · cases h; exact ⟨WF_int _, rfl⟩
    · cases h
  cases s with
  | interval d =>
    simp only [encStrategy, Option.map_eq_some_iff] at h
    obtain ⟨j', h1, rfl⟩ := h
    exact ⟨⟨(hd h1).1, trivial⟩, by simp [depth, depthm, (hd h1).2]⟩
  | exponentialBackoff d =>
    simp only [encStrategy, Option.map_eq_some_iff] at h
    obtain ⟨j', h1, rfl⟩ := h
    exact ⟨⟨(hd h1).1, trivial⟩, by simp [depth, depthm, (hd h1).2]⟩

theorem WF_encRetryOpt {o : Option Retry} {j : Json} (h : encRetryOpt o = some j) :
    WF j ∧ j.depth ≤ 2 := by
  cases o with
  | none => cases h; exact ⟨trivial, by decide⟩
  | some r =>
    simp only [encRetryOpt, encRetry, Option.map_eq_some_iff] at h
    obtain ⟨s, hs, rfl⟩ := h
    obtain ⟨h1, h2⟩ := WF_encStrategy hs
    exact ⟨⟨WF_int _, WF_ofOpt WF_int _, h1, trivial⟩,
      by simp [depth, depthm, h2, depth_ofOpt (f := Json.int) (fun _ => rfl)]⟩

theorem WF_encContext {c : JobContext} {j : Json} (h : encContext c = some j) : WF j ∧ j.depth ≤ 4 := by
  simp only [encContext, Option.map_eq_some_iff] at h
  obtain ⟨r, hr, rfl⟩ := h
  obtain ⟨r1, r2⟩ := WF_encRetryOpt hr
  obtain ⟨t1, t2⟩ := WF_encJobType c.jobType
  obtain ⟨s1, s2⟩ := WF_encStatus c.jobStatus
  have hi := fun o => WF_ofOpt (f := Json.int) WF_int o
  refine ⟨⟨trivial, t1, s1, r1, WF_int _, hi _, hi _, hi _, hi _, WF_int _, trivial⟩, ?_⟩
  simp [depth, depthm, s2, depth_ofOpt (f := Json.int) (fun _ => rfl)]
  omega

variable {D : Type} (dc : DataCodec D)

theorem decJob_enc (L : dc.Lawful) {j : Job D} {js : Json} (h : encJob dc j = some js) :
    decJob dc js = some (j.norm L.norm) := by
  simp only [encJob, Option.bind_eq_bind, Option.bind_eq_some_iff] at h
  obtain ⟨c, hc, d, hd, h⟩ := h
  cases h
  have e1 : req [(c!"context", c), (c!"data", d)] c!"context" = some c := rfl
  have e2 : req [(c!"context", c), (c!"data", d)] c!"data" = some d := rfl
  simp only [decJob, e1, e2, decContext_enc hc, L.roundtrip _ _ hd, Option.bind_eq_bind, Option.bind_some]
  rfl

theorem WF_encJob (L : dc.Lawful) {j : Job D} {js : Json} (h : encJob dc j = some js) :
    WF js ∧ js.depth < 128 := by
  simp only [encJob, Option.bind_eq_bind, Option.bind_eq_some_iff] at h
  obtain ⟨c, hc, d, hd, h⟩ := h
  cases h
  obtain ⟨c1, c2⟩ := WF_encContext hc
  have d1 := L.wf _ _ hd
  have d2 := L.depth _ _ hd
  refine ⟨⟨c1, d1, trivial⟩, ?_⟩
  simp only [depth, depthm]
  omega

/-- The JSON codec keeps jobs, for every lawful data format. -/
def jsonLawful (L : dc.Lawful) (cron : Str → Option (Time → Option Time)) (chk : Bool) :
    Env.Lawful (D := D) ⟨jsonCodec dc, cron, chk⟩ where
  normD := L.norm
  dec_empty := rfl
  roundtrip j s h := by
    simp only [jsonCodec, Option.map_eq_some_iff] at h ⊢
    obtain ⟨js, hj, rfl⟩ := h
    obtain ⟨h1, h2⟩ := WF_encJob dc L hj
    rw [parse_print js h1 h2]
    exact decJob_enc dc L hj
  decoded_norm s j h := by
    simp only [jsonCodec, Option.bind_eq_some_iff] at h
    obtain ⟨js, _, h⟩ := h
    unfold decJob at h
    split at h
    · simp only [Option.bind_eq_bind, Option.bind_eq_some_iff] at h
      obtain ⟨_, _, c, hc, _, _, d, hd, h⟩ := h
      cases h
      simp [Job.norm, (decContext_norm hc).1, L.decoded_norm _ _ hd]
    · cases h
  decoded_enc s j h := by
    simp only [jsonCodec, Option.bind_eq_some_iff] at h
    obtain ⟨js, _, h⟩ := h
    unfold decJob at h
    split at h
    · simp only [Option.bind_eq_bind, Option.bind_eq_some_iff] at h
      obtain ⟨_, _, c, hc, _, _, d, hd, h⟩ := h
      cases h
      have h1 := encContext_some (decContext_norm hc).2
      have h2 := L.decoded_enc _ _ hd
      obtain ⟨x, hx⟩ := Option.isSome_iff_exists.mp h1
      obtain ⟨y, hy⟩ := Option.isSome_iff_exists.mp h2
      simp [Env.Encodable, jsonCodec, encJob, hx, hy]
    · cases h
  congr j j' hr hd h := by
    simp only [Env.Encodable, jsonCodec, encJob, encContext, Option.isSome_map] at h ⊢
    have hs : ∀ r r' : Option Retry, r.map Retry.strategy = r'.map Retry.strategy →
        (encRetryOpt r).isSome = (encRetryOpt r').isSome := by
      intro r r' e
      cases r <;> cases r' <;> simp_all [encRetryOpt, encRetry]
    have hs' := hs _ _ hr
    rw [hd] at h
    cases h1 : encRetryOpt j.context.retry with
    | none => simp [h1] at h
    | some r =>
      rw [h1] at hs'
      obtain ⟨r', h1'⟩ := Option.isSome_iff_exists.mp hs'.symm
      cases h2 : dc.enc j'.data with
      | none => simp [h2] at h
      | some d => simp [h1']

end AJ
