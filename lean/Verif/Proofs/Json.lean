import Verif.Model.Codec

/-! # JSON text reads back as what was written -/

namespace AJ.Json

mutual
/-- Numbers are JSON numbers. -/
def WF : Json → Prop
  | .null => True
  | .bool _ => True
  | .num lex => isNumLex lex = true ∧ lex.all isNumChar = true
  | .str _ => True
  | .arr l => WFs l
  | .obj l => WFm l
def WFs : List Json → Prop
  | [] => True
  | v :: l => WF v ∧ WFs l
def WFm : List (Str × Json) → Prop
  | [] => True
  | (_, v) :: l => WF v ∧ WFm l
end

mutual
/-- Nesting of arrays and objects. -/
def depth : Json → Nat
  | .null => 0
  | .bool _ => 0
  | .num _ => 0
  | .str _ => 0
  | .arr l => depths l + 1
  | .obj l => depthm l + 1
def depths : List Json → Nat
  | [] => 0
  | v :: l => max (depth v) (depths l)
def depthm : List (Str × Json) → Nat
  | [] => 0
  | (_, v) :: l => max (depth v) (depthm l)
end

theorem skipWs_cons {c : Char} {s : Str} (h : isWs c = false) : skipWs (c :: s) = c :: s := by
  simp [skipWs, h]

/-! ## Strings -/

theorem hexVal_hexDigit : ∀ n < 16, hexVal (hexDigit n) = some n := by decide

theorem parseChars_esc (c : Char) (fuel : Nat) (s : Str) :
    parseChars (fuel + 1) (escChar c ++ s) = (parseChars fuel s).map fun p => (c :: p.1, p.2) := by
  unfold escChar
  by_cases h1 : c = '"'
  · subst h1; rfl
  by_cases h2 : c = '\\'
  · subst h2; rfl
  by_cases h3 : c = '\x08'
  · subst h3; rfl
  by_cases h4 : c = '\x0c'
  · subst h4; rfl
  by_cases h5 : c = '\n'
  · subst h5; rfl
  by_cases h6 : c = '\r'
  · subst h6; rfl
  by_cases h7 : c = '\t'
  · subst h7; rfl
  simp only [h1, h2, h3, h4, h5, h6, h7, if_false]
  by_cases h8 : c.toNat < 32
  · simp only [h8, if_true, List.cons_append, List.nil_append]
    have e : escape ('u' :: '0' :: '0' :: hexDigit (c.toNat / 16) :: hexDigit (c.toNat % 16) :: s)
        = some (c, s) := by
      have a1 := hexVal_hexDigit (c.toNat / 16) (by omega)
      have a2 := hexVal_hexDigit (c.toNat % 16) (by omega)
      have a0 : hexVal '0' = some 0 := by decide
      have hu : escape ('u' :: '0' :: '0' :: hexDigit (c.toNat / 16) :: hexDigit (c.toNat % 16) :: s)
        = unicodeEsc ('0' :: '0' :: hexDigit (c.toNat / 16) :: hexDigit (c.toNat % 16) :: s) := rfl
      rw [hu]
      simp only [unicodeEsc, hex4, a0, a1, a2]
      have hn : 0 * 4096 + 0 * 256 + c.toNat / 16 * 16 + c.toNat % 16 = c.toNat := by omega
      rw [hn, if_neg (by omega), if_neg (by omega), Char.ofNat_toNat]
    conv => lhs; unfold parseChars
    simp only [e]
    simp
  · simp only [h8, if_false, List.cons_append, List.nil_append]
    conv => lhs; unfold parseChars
    simp [h1, h2, h8]

theorem parseChars_print (s : Str) (fuel : Nat) (rest : Str) (h : s.length < fuel) :
    parseChars fuel (printChars s ++ rest) = some (s, rest) := by
  induction s generalizing fuel with
  | nil =>
    cases fuel with
    | zero => simp at h
    | succ n => rfl
  | cons c s ih =>
    cases fuel with
    | zero => simp at h
    | succ n =>
      simp only [printChars, List.append_assoc]
      rw [parseChars_esc, ih n (by simpa using h)]
      rfl

theorem printChars_length (s : Str) : s.length + 1 ≤ (printChars s).length := by
  induction s with
  | nil => simp [printChars]
  | cons c s ih =>
    have : 1 ≤ (escChar c).length := by unfold escChar; repeat' split
                                        all_goals simp
    simp only [printChars, List.length_append, List.length_cons]
    omega

/-! ## Numbers -/

theorem spanNum_append (lex rest : Str) (h : lex.all isNumChar = true)
    (hr : ∀ c r, rest = c :: r → isNumChar c = false) : spanNum (lex ++ rest) = (lex, rest) := by
  induction lex with
  | nil =>
    cases rest with
    | nil => rfl
    | cons c r => simp [spanNum, hr c r rfl]
  | cons c s ih =>
    simp only [List.all_cons, Bool.and_eq_true] at h
    simp [spanNum, h.1, ih h.2]

theorem numLex_head {lex : Str} (h : isNumLex lex = true) :
    ∃ c s, lex = c :: s ∧ (c = '-' ∨ c.isDigit = true) := by
  cases lex with
  | nil => simp [isNumLex, isUnsigned] at h
  | cons c s =>
    refine ⟨c, s, rfl, ?_⟩
    by_cases hc : c = '-'
    · exact .inl hc
    · right
      unfold isNumLex at h
      split at h
      · next e => cases e; exact absurd rfl hc
      · unfold isUnsigned at h
        split at h
        · cases h
        · next e => cases e; decide
        · next e => cases e; simp only [Bool.and_eq_true] at h; exact h.1

theorem head_facts {c : Char} (h : c = '-' ∨ c.isDigit = true) :
    isWs c = false ∧ c ≠ ']' ∧ c ≠ '}' ∧ c ≠ 'n' ∧ c ≠ 't' ∧ c ≠ 'f' ∧ c ≠ '"' ∧ c ≠ '[' ∧ c ≠ '{' := by
  refine ⟨?_, ?_, ?_, ?_, ?_, ?_, ?_, ?_, ?_⟩
  · cases hw : isWs c with
    | false => rfl
    | true =>
      simp only [isWs, Bool.or_eq_true, decide_eq_true_eq] at hw
      rcases hw with ((hw | hw) | hw) | hw <;> subst hw <;> revert h <;> decide
  all_goals intro e; subst e; revert h; decide

/-! ## Values -/

theorem print_head (j : Json) (h : WF j) :
    ∃ c r, print j = c :: r ∧ isWs c = false ∧ c ≠ ']' ∧ c ≠ '}' := by
  match j with
  | .null => exact ⟨'n', _, rfl, by decide, by decide, by decide⟩
  | .bool true => exact ⟨'t', _, rfl, by decide, by decide, by decide⟩
  | .bool false => exact ⟨'f', _, rfl, by decide, by decide, by decide⟩
  | .num lex =>
    obtain ⟨c, s, e, hc⟩ := numLex_head h.1
    obtain ⟨a, b, d, _⟩ := head_facts hc
    exact ⟨c, s, e, a, b, d⟩
  | .str s => exact ⟨'"', printChars s, rfl, by decide, by decide, by decide⟩
  | .arr l => exact ⟨'[', printElems l, by simp [print], by decide, by decide, by decide⟩
  | .obj l => exact ⟨'{', printMembers l, by simp [print], by decide, by decide, by decide⟩

/-- What may follow a value. -/
def Stops (rest : Str) : Prop := ∀ c r, rest = c :: r → isNumChar c = false

theorem stops_nil : Stops [] := by intro c r h; cases h
theorem stops_cons {c : Char} (r : Str) (h : isNumChar c = false) : Stops (c :: r) := by
  intro c' r' e; cases e; exact h

theorem skipWs_print {j : Json} (h : WF j) (rest : Str) : skipWs (print j ++ rest) = print j ++ rest := by
  obtain ⟨c, r, e, hw, _⟩ := print_head j h
  rw [e]; exact skipWs_cons hw

theorem parseValue_arr (fuel k : Nat) (l : List Json) (v : Json) (r rest : Str) (hv : WF v)
    (he : parseElems fuel k (print v ++ r) = some (l, rest)) :
    parseValue (fuel + 1) (k + 1) ('[' :: (print v ++ r)) = (if k = 0 then none else some (.arr l, rest)) := by
  have h0 : skipWs ('[' :: (print v ++ r)) = '[' :: (print v ++ r) := skipWs_cons (by decide)
  obtain ⟨c, s, e, hw, hc, _⟩ := print_head v hv
  have h1 := skipWs_print hv r
  unfold parseValue
  simp only [h0]
  rw [if_neg (by decide), if_neg (by decide), if_neg (by decide), if_neg (by decide), if_pos trivial]
  by_cases hk : k = 0
  · subst hk; simp
  · rw [if_neg (by omega), if_neg hk]
    simp only [h1, Nat.add_sub_cancel, he, Option.map_some]
    split
    · next r' heq =>
      rw [e] at heq
      simp only [List.cons_append, List.cons.injEq] at heq
      exact absurd heq.1 hc
    · rfl

theorem parseValue_obj (fuel k : Nat) (l : List (Str × Json)) (s : Str) (rest : Str)
    (he : parseMembers fuel k ('"' :: s) = some (l, rest)) :
    parseValue (fuel + 1) (k + 1) ('{' :: '"' :: s) = (if k = 0 then none else some (.obj l, rest)) := by
  have h0 : skipWs ('{' :: '"' :: s) = '{' :: '"' :: s := skipWs_cons (by decide)
  have h1 : skipWs ('"' :: s) = '"' :: s := skipWs_cons (by decide)
  unfold parseValue
  simp only [h0]
  rw [if_neg (by decide), if_neg (by decide), if_neg (by decide), if_neg (by decide), if_neg (by decide),
    if_pos trivial]
  by_cases hk : k = 0
  · subst hk; simp
  · rw [if_neg (by omega), if_neg hk]
    simp only [h1, Nat.add_sub_cancel, he, Option.map_some]
    rfl

theorem print_length_pos (j : Json) (h : WF j) : 1 ≤ (print j).length := by
  obtain ⟨c, r, e, _⟩ := print_head j h
  rw [e]; simp

mutual
theorem parseValue_print (j : Json) (hw : WF j) (n k : Nat) (rest : Str)
    (hf : 2 * (print j).length ≤ n + 1) (hk : depth j < k) (hr : Stops rest) :
    parseValue (n + 1) k (print j ++ rest) = some (j, rest) := by
  match j, hw, hf, hk with
  | .null, _, _, _ => rfl
  | .bool true, _, _, _ => rfl
  | .bool false, _, _, _ => rfl
  | .num lex, hw, hf, hk =>
    obtain ⟨c, s, e, hc⟩ := numLex_head hw.1
    obtain ⟨a, _, _, b1, b2, b3, b4, b5, b6⟩ := head_facts hc
    have hsp := spanNum_append lex rest hw.2 hr
    have h0 : skipWs (lex ++ rest) = lex ++ rest := by rw [e]; exact skipWs_cons a
    unfold parseValue
    simp only [print, h0]
    rw [e, List.cons_append]
    simp only [b1, b2, b3, b4, b5, b6, if_false]
    rw [← List.cons_append, ← e, hsp, if_pos hw.1]
  | .str s, hw, hf, hk =>
    have hl := printChars_length s
    simp only [print, printStr, List.length_cons] at hf
    have h1 := parseChars_print s n rest (by omega)
    have h0 : skipWs ('"' :: (printChars s ++ rest)) = '"' :: (printChars s ++ rest) := skipWs_cons (by decide)
    unfold parseValue
    simp only [print, printStr, List.cons_append, h0]
    rw [if_neg (by decide), if_neg (by decide), if_neg (by decide), if_pos trivial, h1]
    rfl
  | .arr [], hw, hf, hk =>
    obtain ⟨k, rfl⟩ : ∃ m, k = m + 2 := ⟨k - 2, by simp only [depth, depths] at hk; omega⟩
    rfl
  | .arr (v :: l), hw, hf, hk =>
    obtain ⟨k, rfl⟩ : ∃ m, k = m + 1 := ⟨k - 1, by omega⟩
    simp only [depth] at hk
    simp only [print, List.length_cons] at hf
    have he := parseElems_print v l hw n k rest (by omega) (by omega)
    simp only [print, printElems, List.cons_append, List.append_assoc] at he ⊢
    rw [parseValue_arr n k (v :: l) v _ rest hw.1 he, if_neg (by omega)]
  | .obj [], hw, hf, hk =>
    obtain ⟨k, rfl⟩ : ∃ m, k = m + 2 := ⟨k - 2, by simp only [depth, depthm] at hk; omega⟩
    rfl
  | .obj ((key, v) :: l), hw, hf, hk =>
    obtain ⟨k, rfl⟩ : ∃ m, k = m + 1 := ⟨k - 1, by omega⟩
    simp only [depth] at hk
    simp only [print, List.length_cons] at hf
    have he := parseMembers_print key v l hw n k rest (by omega) (by omega)
    simp only [print, printMembers, printStr, List.cons_append, List.append_assoc] at he ⊢
    rw [parseValue_obj n k ((key, v) :: l) _ rest he, if_neg (by omega)]
termination_by sizeOf j

theorem parseElems_print (v : Json) (l : List Json) (hw : WFs (v :: l)) (fuel k : Nat) (rest : Str)
    (hf : 2 * (printElems (v :: l)).length ≤ fuel + 1) (hk : depths (v :: l) < k) :
    parseElems fuel k (printElems (v :: l) ++ rest) = some (v :: l, rest) := by
  have hp := print_length_pos v hw.1
  simp only [depths] at hk
  match l with
  | [] =>
    simp only [printElems, printElemsTail, List.length_append, List.length_cons, List.length_nil] at hf
    obtain ⟨n, rfl⟩ : ∃ n, fuel = n + 1 := ⟨fuel - 1, by omega⟩
    have h1 := parseValue_print v hw.1 (n - 1) k (']' :: rest) (by omega) (by omega) (stops_cons _ (by decide))
    rw [Nat.sub_add_cancel (by omega)] at h1
    unfold parseElems
    simp only [printElems, printElemsTail, List.append_assoc, List.cons_append, List.nil_append, h1]
    rfl
  | u :: l =>
    have hpu := print_length_pos u hw.2.1
    simp only [printElems, printElemsTail, List.length_append, List.length_cons] at hf
    obtain ⟨n, rfl⟩ : ∃ n, fuel = n + 1 := ⟨fuel - 1, by omega⟩
    have h1 := parseValue_print v hw.1 (n - 1) k (',' :: (printElems (u :: l) ++ rest)) (by omega) (by omega)
      (stops_cons _ (by decide))
    rw [Nat.sub_add_cancel (by omega)] at h1
    have h2 := parseElems_print u l hw.2 n k rest
      (by simp only [printElems, List.length_append]; omega) (by simp only [depths] at hk ⊢; omega)
    unfold parseElems
    have e : printElems (v :: u :: l) ++ rest = print v ++ ',' :: (printElems (u :: l) ++ rest) := by
      simp [printElems, printElemsTail]
    rw [e, h1]
    simp only
    rw [skipWs_cons (by decide)]
    simp only [h2, Option.map_some]
termination_by sizeOf (v :: l)

theorem parseMembers_print (key : Str) (v : Json) (l : List (Str × Json)) (hw : WFm ((key, v) :: l))
    (fuel k : Nat) (rest : Str)
    (hf : 2 * (printMembers ((key, v) :: l)).length ≤ fuel + 1) (hk : depthm ((key, v) :: l) < k) :
    parseMembers fuel k (printMembers ((key, v) :: l) ++ rest) = some ((key, v) :: l, rest) := by
  have hp := print_length_pos v hw.1
  have hkl := printChars_length key
  simp only [depthm] at hk
  match l with
  | [] =>
    simp only [printMembers, printMembersTail, printStr, List.length_append, List.length_cons,
      List.length_nil] at hf
    obtain ⟨n, rfl⟩ : ∃ n, fuel = n + 1 := ⟨fuel - 1, by omega⟩
    have h0 := parseChars_print key n (':' :: (print v ++ '}' :: rest)) (by omega)
    have h1 := parseValue_print v hw.1 (n - 1) k ('}' :: rest) (by omega) (by omega) (stops_cons _ (by decide))
    rw [Nat.sub_add_cancel (by omega)] at h1
    unfold parseMembers
    have e : printMembers [(key, v)] ++ rest
        = '"' :: (printChars key ++ ':' :: (print v ++ '}' :: rest)) := by
      simp [printMembers, printMembersTail, printStr]
    rw [e, skipWs_cons (by decide)]
    simp only [h0]
    rw [skipWs_cons (by decide)]
    simp only [h1]
    rfl
  | (key', u) :: l =>
    simp only [printMembers, printMembersTail, printStr, List.length_append, List.length_cons] at hf
    obtain ⟨n, rfl⟩ : ∃ n, fuel = n + 1 := ⟨fuel - 1, by omega⟩
    have h0 := parseChars_print key n (':' :: (print v ++ ',' :: (printMembers ((key', u) :: l) ++ rest)))
      (by omega)
    have h1 := parseValue_print v hw.1 (n - 1) k (',' :: (printMembers ((key', u) :: l) ++ rest)) (by omega)
      (by omega) (stops_cons _ (by decide))
    rw [Nat.sub_add_cancel (by omega)] at h1
    have h2 := parseMembers_print key' u l hw.2 n k rest
      (by simp only [printMembers, printStr, List.length_append, List.length_cons]; omega)
      (by simp only [depthm] at hk ⊢; omega)
    unfold parseMembers
    have e : printMembers ((key, v) :: (key', u) :: l) ++ rest
        = '"' :: (printChars key ++ ':' :: (print v ++ ',' :: (printMembers ((key', u) :: l) ++ rest))) := by
      simp [printMembers, printMembersTail, printStr]
    rw [e, skipWs_cons (by decide)]
    simp only [h0]
    rw [skipWs_cons (by decide)]
    simp only [h1]
    rw [skipWs_cons (by decide)]
    simp only [h2, Option.map_some]
termination_by sizeOf ((key, v) :: l)
end

/-- Text written for a value nested less than 128 deep reads back as that value. -/
theorem parse_print (j : Json) (hw : WF j) (hd : depth j < 128) : parse (print j) = some j := by
  have h := parseValue_print j hw (2 * (print j).length + 1) 128 [] (by omega) hd stops_nil
  rw [List.append_nil] at h
  unfold parse
  rw [h]
  rfl

/-! ## Integers -/

theorem digit_facts : ∀ k < 10, (Char.ofNat (48 + k)).isDigit = true ∧
    (Char.ofNat (48 + k)).toNat - 48 = k ∧ (Char.ofNat (48 + k) = '0' → k = 0) := by decide

theorem natValue_append (d : Str) (c : Char) : natValue (d ++ [c]) = natValue d * 10 + (c.toNat - 48) := by
  simp [natValue, List.foldl_append]

theorem natDigitsAux_spec (fuel n : Nat) (acc : Str) (h : n < fuel) :
    ∃ d, natDigitsAux fuel n acc = d ++ acc ∧ natValue d = n ∧ allDigits d = true ∧
      ∃ c s, d = c :: s ∧ (c = '0' → n = 0 ∧ s = []) := by
  induction fuel generalizing n acc with
  | zero => omega
  | succ fuel ih =>
    obtain ⟨f1, f2, f3⟩ := digit_facts (n % 10) (Nat.mod_lt _ (by decide))
    unfold natDigitsAux
    simp only
    split
    · next hlt =>
      have hm : n % 10 = n := Nat.mod_eq_of_lt hlt
      refine ⟨[Char.ofNat (48 + n % 10)], rfl, ?_, by simp [allDigits, f1], _, [], rfl, ?_⟩
      · simp [natValue, f2]; omega
      · intro e; exact ⟨by have := f3 e; omega, rfl⟩
    · next hge =>
      obtain ⟨d, e, hv, hd, c, s, hcs, hc⟩ := ih (n / 10) (Char.ofNat (48 + n % 10) :: acc) (by omega)
      refine ⟨d ++ [Char.ofNat (48 + n % 10)], by rw [e]; simp, ?_, ?_, c, s ++ [Char.ofNat (48 + n % 10)],
        by rw [hcs]; rfl, ?_⟩
      · rw [natValue_append, hv, f2]; omega
      · simp only [allDigits, List.all_append, List.all_cons, List.all_nil, f1] at hd ⊢; simpa using hd
      · intro e0; have := (hc e0).1; omega

theorem natDigits_spec (n : Nat) : natValue (natDigits n) = n ∧ allDigits (natDigits n) = true ∧
    ∃ c s, natDigits n = c :: s ∧ (c = '0' → n = 0 ∧ s = []) := by
  obtain ⟨d, e, h1, h2, h3⟩ := natDigitsAux_spec (n + 1) n [] (by omega)
  have : natDigits n = d := by unfold natDigits; rw [e]; simp
  rw [this]; exact ⟨h1, h2, h3⟩

theorem isNumChar_of_digit {c : Char} (h : c.isDigit = true) : isNumChar c = true := by
  simp [isNumChar, h]

theorem unsigned_natDigits (n : Nat) : isUnsigned (natDigits n) = true := by
  obtain ⟨_, h2, c, s, e, hc⟩ := natDigits_spec n
  rw [e] at h2 ⊢
  simp only [allDigits, List.all_cons, Bool.and_eq_true] at h2
  have ht : s.drop (s.takeWhile Char.isDigit).length = [] := by
    have : s.takeWhile Char.isDigit = s := by
      clear e hc
      induction s with
      | nil => rfl
      | cons a s ih =>
        simp only [List.all_cons, Bool.and_eq_true] at h2
        rw [List.takeWhile_cons, if_pos h2.2.1, ih ⟨h2.1, h2.2.2⟩]
    rw [this]; simp
  unfold isUnsigned
  split
  · next e => cases e
  · next e => cases e; rw [(hc rfl).2]; rfl
  · next e => cases e; rw [ht, h2.1]; rfl

theorem WF_int (z : Int) : WF (.int z) := by
  have h1 := unsigned_natDigits z.natAbs
  obtain ⟨_, h2, c, s, e, _⟩ := natDigits_spec z.natAbs
  have hall : (natDigits z.natAbs).all isNumChar = true := by
    simp only [allDigits, List.all_eq_true] at h2 ⊢
    exact fun c hc => isNumChar_of_digit (h2 c hc)
  simp only [int, WF, intText]
  split
  · exact ⟨h1, by rw [List.all_cons, hall]; decide⟩
  · refine ⟨?_, hall⟩
    unfold isNumLex
    split
    · next e' =>
      rw [e'] at h2
      revert h2
      simp [allDigits]
    · exact h1

theorem asInt_int (z : Int) : (int z).asInt = some z := by
  obtain ⟨h1, h2, c, s, e, hc⟩ := natDigits_spec z.natAbs
  simp only [int, intText]
  rw [e] at h1 h2 ⊢
  split
  · next hz =>
    have h3 : c :: s ≠ ['0'] := by
      intro h
      cases h
      have := (hc rfl).1
      omega
    simp only [asInt, h1]
    rw [if_pos ⟨h2, by simp, h3⟩]
    simp only [Option.some.injEq]; omega
  · next hz =>
    have hcd : c ≠ '-' := by
      intro h; subst h; revert h2; simp [allDigits]
    unfold asInt
    split
    · next s' e' => exact absurd (by injection e' with e'; injection e') hcd
    · next lex _ e' =>
      injection e' with e'
      subst e'
      rw [if_pos ⟨h2, by simp⟩, h1]
      congr 1; omega
    · next h => exact absurd rfl (h (c :: s))

@[simp] theorem depth_int (z : Int) : depth (.int z) = 0 := rfl

end AJ.Json
