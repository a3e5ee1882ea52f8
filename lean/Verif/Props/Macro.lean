import Verif.Model.Macro
import Verif.Props.Registry

/-!
# The attribute `#[job]` (C62)
-/

namespace AJ.Props
open Macro

/-- A function with plainly named parameters. -/
def plain (name : Str) (ps : List (Str × Str)) (trailing isAsync : Bool) : Sig :=
  { name := name, args := ps.map fun p => ⟨.ident false p.1, p.2⟩, trailing := trailing, isAsync := isAsync }

section
variable (ps : List (Str × Str))

/-- The parameters of a plain function. -/
private def pats : List Pat := ps.map fun p => .ident false p.1
private def argToks : List Tok := sepBy (ps.map fun p => [.id p.1, .colon, .ty p.2])

private theorem inputs_plain (name : Str) (a : Bool) : (plain name ps false a).inputs = argToks ps := by
  simp [plain, Sig.inputs, argToks, Arg.toks, Pat.toks, List.map_map, Function.comp_def]

private theorem idents_plain (name : Str) (t a : Bool) :
    (plain name ps t a).args.filterMap Arg.ident? = ps.map fun p => ([.id p.1], p.2) := by
  simp only [plain, List.filterMap_map]
  induction ps with
  | nil => rfl
  | cons p ps ih => simp [Arg.ident?, Pat.toks, ih]

private theorem parse_params_more (rest : List Tok) (r : List Pat) (h : parseParams rest = some r) (hne : ps ≠ []) :
    parseParams (argToks ps ++ .comma :: rest) = some (pats ps ++ r) := by
  induction ps with
  | nil => exact absurd rfl hne
  | cons p ps ih =>
    cases ps with
    | nil => simp [argToks, sepBy, parseParams, parseParams.parseRest, h, pats]
    | cons q ps =>
      have := ih (by simp)
      simp only [argToks, List.map_cons, sepBy] at this ⊢
      simp only [List.cons_append, List.nil_append, parseParams, parseParams.parseRest]
      rw [this]
      rfl

private theorem parse_params : parseParams (argToks ps) = some (pats ps) := by
  induction ps with
  | nil => simp [argToks, sepBy, parseParams, pats]
  | cons p ps ih =>
    cases ps with
    | nil => simp [argToks, sepBy, parseParams, parseParams.parseRest, pats]
    | cons q ps =>
      simp only [argToks, List.map_cons, sepBy] at ih ⊢
      simp only [List.cons_append, List.nil_append, parseParams, parseParams.parseRest]
      rw [ih]
      rfl

private theorem parse_fields :
    parseFields (sepBy (ps.map fun p => [.pub, .id p.1, .colon, .ty p.2])) = some (ps.map (·.1)) := by
  induction ps with
  | nil => simp [sepBy, parseFields]
  | cons p ps ih =>
    cases ps with
    | nil => simp [sepBy, parseFields]
    | cons q ps =>
      simp only [List.map_cons, sepBy] at ih ⊢
      simp only [List.cons_append, List.nil_append, parseFields]
      rw [ih]
      rfl

private theorem parse_callArgs :
    parseCallArgs (sepBy (ps.map fun p => [.selfDot, .id p.1, .clone])) = some (ps.map (·.1)) := by
  induction ps with
  | nil => simp [sepBy, parseCallArgs]
  | cons p ps ih =>
    cases ps with
    | nil => simp [sepBy, parseCallArgs]
    | cons q ps =>
      simp only [List.map_cons, sepBy] at ih ⊢
      simp only [List.cons_append, List.nil_append, parseCallArgs]
      rw [ih]
      rfl

private theorem parse_names : parseNames (sepBy (ps.map fun p => [.id p.1])) = some (ps.map (·.1)) := by
  induction ps with
  | nil => simp [sepBy, parseNames]
  | cons p ps ih =>
    cases ps with
    | nil => simp [sepBy, parseNames]
    | cons q ps =>
      simp only [List.map_cons, sepBy] at ih ⊢
      simp only [List.cons_append, List.nil_append, parseNames]
      rw [ih]
      rfl

private theorem bound_pats : bound (pats ps) = ps.map (·.1) := by
  induction ps with
  | nil => rfl
  | cons p ps ih =>
    simp only [pats, List.map_cons, bound] at ih ⊢
    rw [ih]

private theorem bound_append (a b : List Pat) : bound (a ++ b) = bound a ++ bound b := by
  induction a with
  | nil => rfl
  | cons x a ih => cases x <;> simp [bound, ih]

/-- The code of a plain function. -/
private def codeOf (pascal : Str → Str) (name : Str) : Code :=
  ⟨c!"Job" ++ pascal name, ps.map (·.1), ps.map (·.1), pats ps, pats ps ++ [.ident false c!"context"], ps.map (·.1)⟩

private theorem compiles (pascal : Str → Str) (name : Str) (isAsync : Bool) (hne : ps ≠ []) (hnd : (ps.map (·.1)).Nodup)
    (hc : c!"context" ∉ ps.map (·.1)) (hs : c!"Job" ++ pascal name ∉ imported) :
    (expand pascal (plain name ps false isAsync)).compile = some (codeOf ps pascal name) := by
  have h1 := parse_fields ps
  have h2 := parse_callArgs ps
  have h3 := parse_params ps
  have h4 := parse_params_more ps [.id c!"context", .colon, .ty c!"aj::JobContext"] [.ident false c!"context"]
    (by simp [parseParams, parseParams.parseRest]) hne
  have h5 := parse_names ps
  have hb1 : (bound (pats ps)).Nodup := by rw [bound_pats]; exact hnd
  have hb2 : (bound (pats ps ++ [.ident false c!"context"])).Nodup := by
    rw [bound_append, bound_pats, List.nodup_append]
    refine ⟨hnd, by simp [bound], fun a ha b hb e => ?_⟩
    simp only [bound, List.mem_singleton] at hb
    rw [← hb, ← e] at hc
    exact hc ha
  have hl : (ps.map (·.1)).length = (pats ps).length := by simp [pats]
  simp only [Expansion.compile, expand, idents_plain, inputs_plain, List.map_map, Function.comp_def, List.cons_append,
    List.nil_append]
  rw [h1, h2, h3, h4, h5]
  simp only [Option.bind_eq_bind, Option.bind_some]
  rw [if_neg, if_neg, if_neg]
  · rfl
  · exact hs
  · simp only [bound_pats, not_or, Decidable.not_not]
    exact ⟨fun n h => h, fun n h => h, hl, fun n h => h⟩
  · simp only [not_or, Decidable.not_not]
    exact ⟨hb1, hb2, hnd⟩

variable {V : Type}

private theorem bind_pats (vs : List V) (hl : vs.length = ps.length) :
    Macro.bind (pats ps) vs = some ((ps.map (·.1)).zip vs) := by
  induction ps generalizing vs with
  | nil => cases vs <;> simp_all [pats, Macro.bind]
  | cons p ps ih =>
    cases vs with
    | nil => simp at hl
    | cons v vs =>
      have := ih vs (by simpa using hl)
      simp only [pats, List.map_cons, Macro.bind] at this ⊢
      rw [this]
      rfl

private theorem bind_pats_more (vs : List V) (v : V) (hl : vs.length = ps.length) :
    Macro.bind (pats ps ++ [.ident false c!"context"]) (vs ++ [v]) =
      some ((ps.map (·.1)).zip vs ++ [(c!"context", v)]) := by
  induction ps generalizing vs with
  | nil => cases vs <;> simp_all [pats, Macro.bind]
  | cons p ps ih =>
    cases vs with
    | nil => simp at hl
    | cons x vs =>
      have := ih vs (by simpa using hl)
      simp only [pats, List.map_cons, List.cons_append, Macro.bind] at this ⊢
      rw [this]
      rfl

private theorem lookup_zip_append (names : List Str) (vs : List V) (extra : List (Str × V)) (n : Str) (v : V)
    (h : List.lookup n (names.zip vs) = some v) : List.lookup n (names.zip vs ++ extra) = some v := by
  induction names generalizing vs with
  | nil => simp at h
  | cons m names ih =>
    cases vs with
    | nil => simp at h
    | cons w vs =>
      simp only [List.zip_cons_cons, List.lookup_cons, List.cons_append] at h ⊢
      split <;> simp_all

private theorem values_zip (names : List Str) (vs : List V) (extra : List (Str × V)) (hl : vs.length = names.length)
    (hnd : names.Nodup) : values (names.zip vs ++ extra) names = some vs := by
  have key : ∀ (names : List Str) (vs : List V) (env : List (Str × V)), vs.length = names.length →
      (∀ (i : Nat) n v, names[i]? = some n → vs[i]? = some v → List.lookup n env = some v) →
      (names.mapM fun n => List.lookup n env) = some vs := by
    intro names
    induction names with
    | nil => intro vs env hl _; cases vs <;> simp_all
    | cons n names ih =>
      intro vs env hl h
      cases vs with
      | nil => simp at hl
      | cons v vs =>
        rw [List.mapM_cons, h 0 n v rfl rfl, ih vs env (by simpa using hl) (fun i n v h1 h2 => h (i + 1) n v h1 h2)]
        rfl
  refine key names vs _ hl fun i n v hn hv => lookup_zip_append _ _ _ _ _ ?_
  clear key
  induction names generalizing vs i with
  | nil => simp at hn
  | cons m names ih =>
    cases vs with
    | nil => simp at hl
    | cons w vs =>
      simp only [List.zip_cons_cons, List.lookup_cons]
      cases i with
      | zero => simp at hn hv; subst hn; subst hv; simp
      | succ i =>
        have : n ≠ m := by
          intro e
          subst e
          exact (List.nodup_cons.1 hnd).1 (List.mem_of_getElem? hn)
        have hbe : (n == m) = false := by simpa using this
        rw [hbe]
        exact ih vs (by simpa using hl) (List.nodup_cons.1 hnd).2 i hn hv

private theorem new_zip (pascal : Str → Str) (name : Str) (vs : List V) (hl : vs.length = ps.length)
    (hnd : (ps.map (·.1)).Nodup) : (codeOf ps pascal name).new vs = some ((ps.map (·.1)).zip vs) := by
  have h1 := bind_pats ps vs hl
  have h2 := values_zip (ps.map (·.1)) vs [] (by simpa using hl) hnd
  rw [List.append_nil] at h2
  have key : ∀ (names : List Str) (ws : List V) (env : List (Str × V)),
      (names.mapM fun n => List.lookup n env) = some ws →
      (names.mapM fun f => (List.lookup f env).map fun v => (f, v)) = some (names.zip ws) := by
    intro names
    induction names with
    | nil => intro ws env h; cases ws <;> simp_all
    | cons n names ih =>
      intro ws env h
      rw [List.mapM_cons] at h ⊢
      cases hn : List.lookup n env with
      | none => rw [hn] at h; cases h
      | some v =>
        rw [hn] at h
        cases hm : (names.mapM fun n => List.lookup n env) with
        | none => rw [hm] at h; cases h
        | some vs' =>
          rw [hm] at h
          cases h
          rw [ih vs' env hm]
          rfl
  unfold Code.new
  show (Macro.bind (pats ps) vs >>= _) = _
  rw [h1]
  exact key _ _ _ h2

end

/-- C62 for plain functions: whatever its name, whether `async` or not, with at least one parameter, all parameters
plainly named, with different names other than `context`, and no comma after the last, `#[job]` generates code the
compiler accepts; for all arguments, `run` leads to a call of the function with these arguments in this order, and
`run_with_context` to the same call with the given context; and the queue is named after the struct.
Missing for C62 as stated: the functions of the refutations below. -/
theorem C62_partial (pascal : Str → Str) (name : Str) (ps : List (Str × Str)) (isAsync : Bool) (hne : ps ≠ [])
    (hnd : (ps.map (·.1)).Nodup) (hc : c!"context" ∉ ps.map (·.1)) (hs : c!"Job" ++ pascal name ∉ imported) :
    ∃ code, (expand pascal (plain name ps false isAsync)).compile = some code ∧
      code.queueName = c!"Job" ++ pascal name ∧
      ∀ (V : Type) (vs : List V), vs.length = ps.length →
        code.call vs = some vs ∧ ∀ ctx : V, code.callWithContext (vs ++ [ctx]) = some (vs, ctx) := by
  refine ⟨codeOf ps pascal name, compiles ps pascal name isAsync hne hnd hc hs, rfl, fun V vs hl => ⟨?_, fun ctx => ?_⟩⟩
  · have h1 := bind_pats ps vs hl
    have h2 := values_zip (ps.map (·.1)) vs [] (by simpa using hl) hnd
    rw [List.append_nil] at h2
    have h3 := new_zip ps pascal name vs hl hnd
    unfold Code.call
    show (Macro.bind (pats ps) vs >>= _) = _
    rw [h1]
    show (values ((ps.map (·.1)).zip vs) (ps.map (·.1)) >>= _) = _
    rw [h2]
    show ((codeOf ps pascal name).new vs >>= _) = _
    rw [h3]
    exact h2
  · have h1 := bind_pats_more ps vs ctx hl
    have h2 := values_zip (ps.map (·.1)) vs [(c!"context", ctx)] (by simpa using hl) hnd
    have h2' := values_zip (ps.map (·.1)) vs [] (by simpa using hl) hnd
    rw [List.append_nil] at h2'
    have h3 := new_zip ps pascal name vs hl hnd
    have h4 : List.lookup c!"context" ((ps.map (·.1)).zip vs ++ [(c!"context", ctx)]) = some ctx := by
      have : ∀ (names : List Str) (ws : List V), c!"context" ∉ names →
          List.lookup c!"context" (names.zip ws ++ [(c!"context", ctx)]) = some ctx := by
        intro names
        induction names with
        | nil => intro ws _; rfl
        | cons m names ih =>
          intro ws hm
          cases ws with
          | nil => rfl
          | cons w ws =>
            have hbe : (c!"context" == m) = false := by
              have : c!"context" ≠ m := fun e => hm (by rw [e]; simp)
              simpa using this
            rw [List.zip_cons_cons, List.cons_append, List.lookup_cons, hbe]
            exact ih ws (fun h => hm (by simp [h]))
      exact this _ _ hc
    unfold Code.callWithContext
    show (Macro.bind (pats ps ++ [.ident false c!"context"]) (vs ++ [ctx]) >>= _) = _
    rw [h1]
    show (values ((ps.map (·.1)).zip vs ++ [(c!"context", ctx)]) (ps.map (·.1)) >>= _) = _
    rw [h2]
    show ((codeOf ps pascal name).new vs >>= _) = _
    rw [h3]
    show (List.lookup c!"context" ((ps.map (·.1)).zip vs ++ [(c!"context", ctx)]) >>= _) = _
    rw [h4]
    show (values ((ps.map (·.1)).zip vs) (ps.map (·.1)) >>= _) = _
    rw [h2']
    rfl

/-- A simple case conversion: the first letter in upper case. -/
def capital (s : Str) : Str := match s with
  | [] => []
  | c :: cs => c.toUpper :: cs

/-- `fn hello(name: String, times: i32)`. -/
def helloArgs : List (Str × Str) := [(c!"name", c!"String"), (c!"times", c!"i32")]

example : helloArgs ≠ [] ∧ (helloArgs.map (·.1)).Nodup ∧ c!"context" ∉ helloArgs.map (·.1) ∧
    c!"Job" ++ capital c!"hello" ∉ imported ∧
    ((expand capital (plain c!"hello" helloArgs false true)).compile.bind fun c => c.call [10, 20]) = some [10, 20] ∧
    (expand capital (plain c!"hello" helloArgs false true)).compile.map (·.queueName) = some c!"JobHello" := by
  decide +kernel

/-- C62 is false of every function without parameters: the generated parameter list `(, context: aj::JobContext)` is
a syntax error. -/
theorem C62_refuted_empty (pascal : Str → Str) (name : Str) (t a : Bool) :
    (expand pascal (plain name [] t a)).compile = none := by
  simp [Expansion.compile, expand, plain, Sig.inputs, sepBy, parseFields, parseCallArgs, parseNames, parseParams]

/-- C62 is false of every function with a comma after its last parameter, as `rustfmt` writes long lists: the
generated list has two commas in a row. -/
theorem C62_refuted_comma (pascal : Str → Str) (name : Str) (ps : List (Str × Str)) (a : Bool) :
    (expand pascal (plain name ps true a)).compile = none := by
  by_cases hne : ps = []
  · subst hne; exact C62_refuted_empty pascal name true a
  have hi : (plain name ps true a).inputs = argToks ps ++ [.comma] := by
    simp [plain, Sig.inputs, argToks, Arg.toks, Pat.toks, List.map_map, Function.comp_def, hne]
  have key : ∀ (ps : List (Str × Str)) (rest : List Tok), ps ≠ [] →
      parseParams (argToks ps ++ .comma :: .comma :: rest) = none := by
    intro ps rest
    induction ps with
    | nil => exact fun h => absurd rfl h
    | cons p ps ih =>
      intro _
      cases ps with
      | nil => simp [argToks, sepBy, parseParams, parseParams.parseRest]
      | cons q ps =>
        have := ih (by simp)
        simp only [argToks, List.map_cons, sepBy] at this ⊢
        simp only [List.cons_append, List.nil_append, parseParams, parseParams.parseRest]
        rw [this]
        rfl
  have h4 := key ps [.id c!"context", .colon, .ty c!"aj::JobContext"] hne
  simp only [Expansion.compile, expand, hi, List.append_assoc, List.cons_append, List.nil_append]
  rw [h4]
  simp only [Option.bind_eq_bind, Option.bind_none]
  cases parseFields _ <;> [rfl; (cases parseCallArgs _ <;> [rfl; (cases parseParams _ <;> rfl)])]

/-- C62 is false of every function with a parameter called `context`: `run_with_context` has it twice. -/
theorem C62_refuted_context (pascal : Str → Str) (name : Str) (ps : List (Str × Str)) (a : Bool)
    (hc : c!"context" ∈ ps.map (·.1)) : (expand pascal (plain name ps false a)).compile = none := by
  have hne : ps ≠ [] := by intro e; subst e; simp at hc
  have h1 := parse_fields ps
  have h2 := parse_callArgs ps
  have h3 := parse_params ps
  have h4 := parse_params_more ps [.id c!"context", .colon, .ty c!"aj::JobContext"] [.ident false c!"context"]
    (by simp [parseParams, parseParams.parseRest]) hne
  have h5 := parse_names ps
  simp only [Expansion.compile, expand, idents_plain, inputs_plain, List.map_map, Function.comp_def, List.cons_append,
    List.nil_append]
  rw [h1, h2, h3, h4, h5]
  simp only [Option.bind_eq_bind, Option.bind_some]
  rw [if_pos]
  refine .inr (.inl fun hn => ?_)
  rw [bound_append, bound_pats, List.nodup_append] at hn
  exact hn.2.2 _ hc _ (by simp [bound]) rfl

/-- C62 is false of every function with a parameter declared `mut`: the generated field `pub mut x` is a syntax
error. -/
theorem C62_refuted_mut (pascal : Str → Str) (s : Sig) (n t : Str) (h : ⟨.ident true n, t⟩ ∈ s.args) :
    (expand pascal s).compile = none := by
  have key : ∀ l : List (List Tok × Str), ([.mut, .id n], t) ∈ l →
      (∀ p ∈ l, ∃ m, p.1 = [.id m] ∨ p.1 = [.mut, .id m]) →
      parseFields (sepBy (l.map fun p => .pub :: p.1 ++ [.colon, .ty p.2])) = none := by
    intro l
    induction l with
    | nil => intro h; cases h
    | cons p l ih =>
      intro hm hall
      obtain ⟨m, hp⟩ := hall p (List.mem_cons_self ..)
      cases l with
      | nil =>
        simp only [List.mem_singleton] at hm
        subst hm
        simp [sepBy, parseFields]
      | cons q l =>
        rcases hp with hp | hp
        · have hm' : ([.mut, .id n], t) ∈ q :: l := by
            rcases List.mem_cons.1 hm with e | e
            · rw [← e] at hp; simp at hp
            · exact e
          have := ih hm' (fun p h => hall p (List.mem_cons_of_mem _ h))
          simp only [List.map_cons, sepBy, hp, List.cons_append, List.nil_append, parseFields] at this ⊢
          rw [this]
          rfl
        · simp [sepBy, hp, parseFields]
  have h1 := key (s.args.filterMap Arg.ident?) (List.mem_filterMap.2 ⟨_, h, rfl⟩) (fun p hp => by
    obtain ⟨a, _, ha⟩ := List.mem_filterMap.1 hp
    obtain ⟨q, ty⟩ := a
    cases q with
    | other => simp [Arg.ident?] at ha
    | ident b m => cases b <;> (simp only [Arg.ident?, Pat.toks, Option.some.injEq] at ha; subst ha; exact ⟨m, by simp⟩))
  simp only [Expansion.compile, expand]
  rw [h1]
  rfl

example : (⟨.ident true c!"x", c!"i32"⟩ : Arg) ∈
    (⟨c!"f", [⟨.ident false c!"y", c!"u8"⟩, ⟨.ident true c!"x", c!"i32"⟩], false, false⟩ : Sig).args := by decide +kernel

/-- C62 is false of every function with a parameter that is a pattern (`_`, `(a, b)`, …): the pattern gets no field,
and `new` is called with too few arguments. -/
theorem C62_refuted_pattern (pascal : Str → Str) (s : Sig) (t : Str) (h : ⟨.other, t⟩ ∈ s.args) :
    (expand pascal s).compile = none := by
  have hp : ∀ (l : List Arg) (tr : Bool), parseParams (sepBy (l.map Arg.toks) ++
      if tr && !l.isEmpty then [.comma] else []) = some (l.map (·.pat)) := by
    intro l tr
    induction l with
    | nil => simp [sepBy, parseParams]
    | cons a l ih =>
      obtain ⟨q, ty⟩ := a
      cases l with
      | nil =>
        cases tr <;> rcases q with ⟨_ | _, m⟩ | _ <;>
          simp [sepBy, parseParams, parseParams.parseRest, Arg.toks, Pat.toks]
      | cons c l =>
        have e : (tr && !(⟨q, ty⟩ :: c :: l : List Arg).isEmpty) = (tr && !(c :: l).isEmpty) := rfl
        rw [e]
        generalize (tr && !(c :: l).isEmpty) = z at ih ⊢
        simp only [List.map_cons, sepBy] at ih ⊢
        generalize sepBy (c.toks :: List.map Arg.toks l) = rest at ih ⊢
        rcases q with ⟨_ | _, m⟩ | _
        all_goals
          simp only [Arg.toks, Pat.toks, List.cons_append, List.nil_append, parseParams, parseParams.parseRest]
          rw [ih]
          rfl
  have hn : ∀ (l : List (List Tok)) (names : List Str), (∀ p ∈ l, ∃ m, p = [.id m] ∨ p = [.mut, .id m]) →
      parseNames (sepBy l) = some names → names.length = l.length := by
    intro l
    induction l with
    | nil => intro names _ h; simp [sepBy, parseNames] at h; simp [← h]
    | cons x l ih =>
      intro names hall hx
      obtain ⟨m, hm⟩ := hall x (List.mem_cons_self ..)
      cases l with
      | nil =>
        rcases hm with rfl | rfl
        · simp [sepBy, parseNames] at hx; simp [← hx]
        · simp [sepBy, parseNames] at hx
      | cons y l =>
        rcases hm with rfl | rfl
        · simp only [sepBy, List.cons_append, List.nil_append, parseNames, Option.map_eq_some_iff] at hx
          obtain ⟨ns, h1, h2⟩ := hx
          have := ih ns (fun p h => hall p (List.mem_cons_of_mem _ h)) h1
          rw [← h2]
          simp only [List.length_cons] at this ⊢
          omega
        · simp [sepBy, parseNames] at hx
  have hlt : (s.args.filterMap Arg.ident?).length < s.args.length := by
    generalize s.args = l at h
    induction l with
    | nil => cases h
    | cons a l ih =>
      rcases List.mem_cons.1 h with e | e
      · subst e
        have := List.length_filterMap_le Arg.ident? l
        simp only [List.filterMap_cons, Arg.ident?, List.length_cons]
        exact Nat.lt_succ_of_le this
      · have := ih e
        rw [List.filterMap_cons]
        split <;> simp only [List.length_cons] <;> omega
  have hall : ∀ p ∈ (s.args.filterMap Arg.ident?).map (·.1), ∃ m, p = [.id m] ∨ p = [.mut, .id m] := by
    intro p hp
    obtain ⟨x, hx, rfl⟩ := List.mem_map.1 hp
    obtain ⟨a, _, ha⟩ := List.mem_filterMap.1 hx
    obtain ⟨q, ty⟩ := a
    cases q with
    | other => simp [Arg.ident?] at ha
    | ident b m => cases b <;> (simp only [Arg.ident?, Pat.toks, Option.some.injEq] at ha; subst ha; exact ⟨m, by simp⟩)
  have hpar : parseParams s.inputs = some (s.args.map (·.pat)) := hp s.args s.trailing
  simp only [Expansion.compile, expand]
  cases parseFields _ with
  | none => rfl
  | some fs =>
    cases parseCallArgs _ with
    | none => rfl
    | some cs =>
      rw [hpar]
      cases parseParams _ with
      | none => rfl
      | some cp =>
        cases hnm : parseNames _ with
        | none => rfl
        | some names =>
          have hl := hn _ _ hall hnm
          simp only [Option.bind_eq_bind, Option.bind_some]
          split
          · rfl
          · rw [if_pos]
            refine .inr (.inr (.inl ?_))
            rw [hl]
            simp only [List.length_map]
            omega

example : (⟨.other, c!"(i32, i32)"⟩ : Arg) ∈
    (⟨c!"f", [⟨.ident false c!"y", c!"u8"⟩, ⟨.other, c!"(i32, i32)"⟩], false, false⟩ : Sig).args := by decide +kernel

/-- C62 is false of every function whose struct gets the name of an import, such as a function called `context`. -/
theorem C62_refuted_import (pascal : Str → Str) (s : Sig) (h : c!"Job" ++ pascal s.name ∈ imported) :
    (expand pascal s).compile = none := by
  simp only [Expansion.compile]
  cases parseFields _ with
  | none => rfl
  | some fs =>
    cases parseCallArgs _ with
    | none => rfl
    | some cs =>
      cases parseParams _ with
      | none => rfl
      | some ps =>
        cases parseParams _ with
        | none => rfl
        | some cp =>
          cases parseNames _ with
          | none => rfl
          | some names =>
            simp only [Option.bind_eq_bind, Option.bind_some]
            split
            · rfl
            · split
              · rfl
              · rw [if_pos (show (expand pascal s).struct ∈ imported from h)]

example : c!"Job" ++ capital (plain c!"context" helloArgs false false).name ∈ imported := by decide +kernel

example : c!"context" ∈ [(c!"context", c!"i32")].map (·.1) := by decide +kernel

/-- C62 is false about the queue of its own: two functions of one name in different modules get queues of one name.
Their jobs are of different types, so that the first submission of the second type kills the engine. -/
theorem C62_refuted_queue (pascal : Str → Str) (name : Str) (ps qs : List (Str × Str)) (b t u : Nat) (htu : t ≠ u) :
    let n := (expand pascal (plain name ps false false)).struct
    let m := (expand pascal (plain name qs false false)).struct
    n = m ∧ ∃ ops, let h := Hub.run {} (startAlone 0 b ++ ops)
      h.clients 1 = .done (.submit t n) (.answer 0) ∧ h.clients 2 = .done (.submit u m) .mailboxError ∧
        h.engines = [{ backend := b, alive := false }] := by
  refine ⟨rfl, [.begin 1 (.submit t (c!"Job" ++ pascal name)), .client 1 false, .client 1 false, .engine 0, .engine 0, .engine 0, .engine 0,
    .begin 2 (.submit u (c!"Job" ++ pascal name)), .client 2 false, .client 2 false, .engine 0], ?_⟩
  rw [Hub.run_append, started]
  simp [expand, plain, Hub.run, Hub.step, Hub.begin, Hub.go, Hub.client, Hub.look, Hub.readAddr, Hub.send, Hub.engine,
    Hub.answer, Hub.crash, Hub.release, upd, htu.symm]

end AJ.Props
