import Verif.Spec.LLVMText
import Verif.Lemmas.LLVM

/-!
# Lemmas about reading LLVM assembly
-/

set_option linter.unusedSimpArgs false

namespace Verif
open Spec

/-! ### Lexer -/

/-- Put tokens in front. -/
def preToks (ts : List Tok) (r : Option (List Tok × LexState)) : Option (List Tok × LexState) :=
  r.map (fun q => (ts ++ q.1, q.2))

theorem preToks_append (ts us : List Tok) (r) : preToks ts (preToks us r) = preToks (ts ++ us) r := by
  cases r <;> simp [preToks]

theorem preToks_nil (r) : preToks [] r = r := by cases r <;> simp [preToks]

theorem lexRun_append (s : LexState) (l m : List Char) :
    lexRun s (l ++ m) = (lexRun s l).bind (fun q => preToks q.1 (lexRun q.2 m)) := by
  induction l generalizing s with
  | nil => simp [lexRun, preToks_nil]
  | cons c l ih =>
    simp only [List.cons_append, lexRun]
    cases lexStep s c with
    | none => rfl
    | some q =>
      simp only [Option.bind_eq_bind, Option.bind_some]
      rw [ih]
      cases lexRun q.2 l with
      | none => rfl
      | some q' =>
        simp only [Option.bind_some]
        cases hx : lexRun q'.2 m <;> simp [preToks, hx]

/-- A piece of text that is read as these tokens when it is followed by something that does not
continue a name. -/
def LexesW (l : List Char) (ts : List Tok) : Prop :=
  ∀ c rest, isNameChar c = false → lexRun .idle (l ++ c :: rest) = preToks ts (lexRun .idle (c :: rest))

/-- A piece of text that is read as these tokens whatever follows. -/
def Lexes (l : List Char) (ts : List Tok) : Prop :=
  ∀ rest, lexRun .idle (l ++ rest) = preToks ts (lexRun .idle rest)

theorem Lexes.weak {l ts} (h : Lexes l ts) : LexesW l ts := fun c rest _ => h (c :: rest)

theorem Lexes.of_run {l ts} (h : lexRun .idle l = some (ts, .idle)) : Lexes l ts := by
  intro rest
  rw [lexRun_append, h]
  rfl

theorem Lexes.append {l m ts us} (h1 : Lexes l ts) (h2 : Lexes m us) : Lexes (l ++ m) (ts ++ us) := by
  intro rest
  rw [List.append_assoc, h1, h2, preToks_append]

theorem Lexes.appendW {l m ts us} (h1 : Lexes l ts) (h2 : LexesW m us) :
    LexesW (l ++ m) (ts ++ us) := by
  intro c rest hc
  rw [List.append_assoc, h1, h2 c rest hc, preToks_append]

theorem LexesW.sep {l m ts us c} (h1 : LexesW l ts) (hc : isNameChar c = false)
    (h2 : Lexes (c :: m) us) : Lexes (l ++ c :: m) (ts ++ us) := by
  intro rest
  rw [List.append_assoc, List.cons_append, h1 c _ hc, ← List.cons_append, h2, preToks_append]

theorem idleStep_name {c : Char} (h : isNameChar c = true) :
    idleStep c = some ([], .name .bare [c]) := by
  have ne : ∀ d : Char, isNameChar d = false → c ≠ d := by
    rintro d hd rfl
    rw [h] at hd
    cases hd
  unfold idleStep isSpaceChar isPunct
  simp [ne ' ' (by decide), ne '\n' (by decide), ne '\t' (by decide), ne '\r' (by decide),
    ne ',' (by decide), ne '(' (by decide), ne ')' (by decide), ne '{' (by decide),
    ne '}' (by decide), ne '=' (by decide), ne '*' (by decide), ne ';' (by decide),
    ne '%' (by decide), ne '@' (by decide), ne '"' (by decide), h]

theorem lexRun_name (k : Sigil) (acc w : List Char) (hw : ∀ c ∈ w, isNameChar c = true) :
    lexRun (.name k acc) w = some ([], .name k (acc ++ w)) := by
  induction w generalizing acc with
  | nil => simp [lexRun]
  | cons c w ih =>
    simp only [lexRun, lexStep, hw c (by simp), if_true, Option.bind_eq_bind, Option.bind_some]
    rw [ih _ (fun d hd => hw d (by simp [hd]))]
    simp

/-- A word. -/
theorem lexes_word {w : List Char} (hne : w ≠ []) (hw : ∀ c ∈ w, isNameChar c = true) :
    LexesW w [.word w] := by
  intro c rest hc
  cases w with
  | nil => exact absurd rfl hne
  | cons d w =>
    rw [lexRun_append]
    simp only [lexRun, lexStep, idleStep_name (hw d (by simp)), Option.bind_eq_bind,
      Option.bind_some]
    rw [lexRun_name _ _ _ (fun e he => hw e (by simp [he]))]
    simp only [Option.bind_some, List.nil_append, Option.pure_def]
    simp only [lexRun, lexStep, hc, Bool.false_eq_true, if_false, Option.bind_eq_bind]
    cases hs : idleStep c with
    | none => rfl
    | some q =>
      simp only [Option.map_some, Option.bind_some]
      cases lexRun q.2 rest with
      | none => rfl
      | some q' => simp [preToks, nameTok]

theorem lexRun_quoted (k : Sigil) (acc w : List Char)
    (hw : ∀ c ∈ w, c ≠ '"' ∧ c ≠ '\\' ∧ c.toNat ≠ 0) :
    lexRun (.quoted k acc) w = some ([], .quoted k (acc ++ w)) := by
  induction w generalizing acc with
  | nil => simp [lexRun]
  | cons c w ih =>
    obtain ⟨h1, h2, h3⟩ := hw c (by simp)
    simp only [lexRun, lexStep, h1, h2, h3, or_self, if_false, Option.bind_eq_bind,
      Option.bind_some]
    rw [ih _ (fun d hd => hw d (by simp [hd]))]
    simp

/-- A quoted local name. -/
theorem lexes_local {s : String} (hs : SafeName s) : Lexes (quoteName s).toList [.loc s.toList] := by
  apply Lexes.of_run
  unfold quoteName
  rw [String.toList_append, String.toList_append]
  have e1 : "%\"".toList = ['%', '"'] := rfl
  have e2 : "\"".toList = ['"'] := rfl
  have hne : s.toList ≠ [] := fun h => hs.1 (String.toList_inj.1 h)
  rw [e1, e2, lexRun_append, lexRun_append]
  have : lexRun .idle ['%', '"'] = some ([], .quoted .loc []) := by decide
  rw [this]
  simp only [Option.bind_some]
  rw [lexRun_quoted _ _ _ hs.2]
  simp [preToks, lexRun, lexStep, hne, quotedTok]

theorem hexDigit_nameChar {c : Char} {d : Nat} (h : hexDigit c = some d) : isNameChar c = true := by
  unfold hexDigit at h
  unfold isNameChar Char.isAlphanum Char.isAlpha Char.isDigit Char.isLower
  have key : ∀ a b : Char, a ≤ b ↔ a.val ≤ b.val := fun a b => Iff.rfl
  split at h
  · rename_i h'
    have h1 := (key _ _).1 h'.1
    have h2 := (key _ _).1 h'.2
    have : (c.val ≥ 48 && c.val ≤ 57) = true := by
      simp only [Bool.and_eq_true, decide_eq_true_eq]; exact ⟨h1, h2⟩
    simp only [decide_eq_true_eq, Bool.and_eq_true] at this
    simp [this]
  · split at h
    · rename_i h'
      have h1 := (key _ _).1 h'.1
      have h2 := (key _ _).1 h'.2
      have h3 : c.val ≤ 122 := Nat.le_trans h2 (by decide)
      have h1' : 97 ≤ c.val := h1
      simp [h1', h3]
    · cases h

theorem hexDigits_nameChars (ds : List Char) (acc b : Nat)
    (h : ds.foldlM (fun acc c => (hexDigit c).map (fun d => 16 * acc + d)) acc = some b) :
    ∀ c ∈ ds, isNameChar c = true := by
  induction ds generalizing acc with
  | nil => intro c hc; cases hc
  | cons d ds ih =>
    intro c hc
    rw [List.foldlM_cons] at h
    cases hd : hexDigit d with
    | none => rw [hd] at h; cases h
    | some v =>
      rw [hd] at h
      rcases List.mem_cons.1 hc with rfl | hc
      · exact hexDigit_nameChar hd
      · exact ih _ h c hc

theorem hexValue_chars {s : String} {b : Nat} (h : hexValue s = some b) :
    s.toList ≠ [] ∧ ∀ c ∈ s.toList, isNameChar c = true := by
  unfold hexValue at h
  split at h
  · rename_i d ds he
    rw [he]
    refine ⟨by simp, ?_⟩
    intro c hc
    rcases List.mem_cons.1 hc with rfl | hc
    · decide
    · rcases List.mem_cons.1 hc with rfl | hc
      · decide
      · exact hexDigits_nameChars _ 0 b h c hc
  · cases h

/-! ### Tokens of the generated text -/

/-- An operand that can be written: a local name or a constant. -/
def Writable (u : String) : Prop := LocalName u ∨ ∃ b, hexValue u = some b

/-- The token of an operand. -/
def opTok (u : String) : Tok :=
  match u.toList with
  | '%' :: '"' :: rest => .loc rest.dropLast
  | l => .word l

theorem opTok_local {s : String} : opTok (quoteName s) = .loc s.toList := by
  unfold opTok quoteName
  rw [String.toList_append, String.toList_append]
  have e1 : "%\"".toList = ['%', '"'] := rfl
  have e2 : "\"".toList = ['"'] := rfl
  rw [e1, e2]
  simp

theorem opTok_const {u : String} {b : Nat} (h : hexValue u = some b) : opTok u = .word u.toList := by
  unfold opTok
  split
  · rename_i rest he
    unfold hexValue at h
    rw [he] at h
    cases h
  · rfl

theorem lexes_operand {u : String} (h : Writable u) : LexesW u.toList [opTok u] := by
  rcases h with ⟨s, hs, rfl⟩ | ⟨b, hb⟩
  · rw [show "%\"" ++ s ++ "\"" = quoteName s from rfl, opTok_local]
    exact (lexes_local hs).weak
  · rw [opTok_const hb]
    obtain ⟨h1, h2⟩ := hexValue_chars hb
    exact lexes_word h1 h2

theorem lexes_localName {u : String} (h : LocalName u) : Lexes u.toList [opTok u] := by
  obtain ⟨s, hs, rfl⟩ := h
  rw [show "%\"" ++ s ++ "\"" = quoteName s from rfl, opTok_local]
  exact lexes_local hs

theorem parseOperand_opTok {u : String} (h : Writable u) (rest : List Tok) :
    parseOperand (opTok u :: rest) = some (u, rest) := by
  rcases h with ⟨s, hs, rfl⟩ | ⟨b, hb⟩
  · rw [show "%\"" ++ s ++ "\"" = quoteName s from rfl, opTok_local]
    simp [parseOperand, localText, quoteName, String.ofList_toList]
  · rw [opTok_const hb]
    simp [parseOperand, String.ofList_toList, hb]

theorem opTok_localName {u : String} (h : LocalName u) : ∃ s, opTok u = .loc s ∧ localText s = u := by
  obtain ⟨s, hs, rfl⟩ := h
  exact ⟨s.toList, opTok_local, by simp [localText, String.ofList_toList]⟩

/-- What is needed to write an instruction. -/
def InstrWritable : Instr → Prop
  | .arith dst op operands => LocalName dst ∧ (op = "fadd" ∨ op = "fmul") ∧
      operands.length = 2 ∧ ∀ u ∈ operands, Writable u
  | .call dst fn args => LocalName dst ∧ (∀ u ∈ args, Writable u) ∧
      ((fn = "pow" ∧ args.length = 2) ∨ ((fn = "sin" ∨ fn = "cos") ∧ args.length = 1))
  | .gep dst base _ => LocalName dst ∧ LocalName base
  | .store value ptr => Writable value ∧ LocalName ptr
  | .ret value => Writable value
  | .retVoid => True

/-- Groups of tokens with commas between them. -/
def commaToks : List (List Tok) → List Tok
  | [] => []
  | [x] => x
  | x :: y :: rest => x ++ .punct ',' :: commaToks (y :: rest)

/-- The tokens of an instruction. -/
def instrToks : Instr → List Tok
  | .arith dst op operands => [opTok dst, .punct '=', kw op, kw "double"] ++
      commaToks (operands.map (fun u => [opTok u]))
  | .call dst fn args => [opTok dst, .punct '=', kw "call", kw "double",
      .glob ("llvm." ++ fn ++ ".f64").toList, .punct '('] ++
      commaToks (args.map (fun u => [kw "double", opTok u])) ++ [.punct ')']
  | .gep dst base index => [opTok dst, .punct '=', kw "getelementptr", kw "double", .punct ',',
      kw "double", .punct '*', opTok base, .punct ',', kw "i32", .word (toString index).toList]
  | .store value ptr => [kw "store", kw "double", opTok value, .punct ',', kw "double",
      .punct '*', opTok ptr]
  | .ret value => [kw "ret", kw "double", opTok value]
  | .retVoid => [kw "ret", kw "void"]

/-- A concrete piece of text. -/
theorem lexes_lit (s : String) (ts : List Tok) (h : lexRun .idle s.toList = some (ts, .idle)) :
    Lexes s.toList ts := .of_run h

theorem nat_toList (n : Nat) : (toString n).toList = Nat.toDigits 10 n := by
  rw [Nat.toString_eq_ofList_toDigits, String.toList_ofList]

theorem digit_nameChar {c : Char} (h : c.isDigit = true) : isNameChar c = true := by
  simp [isNameChar, Char.isAlphanum, h]

theorem lexes_nat (n : Nat) : LexesW (toString n).toList [.word (toString n).toList] := by
  apply lexes_word
  · rw [nat_toList]; exact Nat.toDigits_ne_nil
  · intro c hc
    rw [nat_toList] at hc
    exact digit_nameChar (Nat.isDigit_of_mem_toDigits (by decide) (by decide) hc)

theorem parseNat_toString (n : Nat) : parseNat (toString n).toList = some n := by
  unfold parseNat
  rw [nat_toList, if_pos]
  · rw [← Nat.ofDigitChars_eq_foldl, Nat.ofDigitChars_ten_toDigits]
  · refine ⟨Nat.toDigits_ne_nil, ?_⟩
    rw [List.all_eq_true]
    intro c hc
    exact Nat.isDigit_of_mem_toDigits (by decide) (by decide) hc

theorem lexes_instr {i : Instr} (h : InstrWritable i) : LexesW i.text.toList (instrToks i) := by
  cases i with
  | arith dst op operands =>
    obtain ⟨h1, h2, h3, h4⟩ := h
    obtain ⟨a, b, rfl⟩ : ∃ a b, operands = [a, b] := by
      match operands, h3 with
      | [a, b], _ => exact ⟨a, b, rfl⟩
    have ha := lexes_operand (h4 a (by simp))
    have hb := lexes_operand (h4 b (by simp))
    have hc := lexes_lit ", " [.punct ','] (by decide)
    have e : (Instr.arith dst op [a, b]).text.toList =
        dst.toList ++ (" = " ++ op ++ " double ").toList ++ (a.toList ++ ", ".toList) ++ b.toList := by
      simp [Instr.text, String.toList_intercalate, List.intercalate]
    have ho : Lexes (" = " ++ op ++ " double ").toList [.punct '=', kw op, kw "double"] := by
      rcases h2 with rfl | rfl
      · exact lexes_lit _ _ (by decide)
      · exact lexes_lit _ _ (by decide)
    rw [e]
    have := (((lexes_localName h1).append ho).append (ha.sep (by decide) hc)).appendW hb
    exact this
  | call dst fn args =>
    obtain ⟨h1, h2, h3⟩ := h
    have hp : Lexes (")".toList) [.punct ')'] := lexes_lit _ _ (by decide)
    have hd : Lexes ("double ".toList) [kw "double"] := lexes_lit _ _ (by decide)
    have hc := lexes_lit ", " [.punct ','] (by decide)
    have ho : Lexes (" = call double @llvm." ++ fn ++ ".f64(").toList
        [.punct '=', kw "call", kw "double", .glob ("llvm." ++ fn ++ ".f64").toList, .punct '('] := by
      rcases h3 with ⟨rfl, _⟩ | ⟨rfl | rfl, _⟩ <;> exact lexes_lit _ _ (by decide)
    rcases h3 with ⟨_, hlen⟩ | ⟨_, hlen⟩
    · obtain ⟨a, b, rfl⟩ : ∃ a b, args = [a, b] := by
        match args, hlen with
        | [a, b], _ => exact ⟨a, b, rfl⟩
      have ha := lexes_operand (h2 a (by simp))
      have hb := lexes_operand (h2 b (by simp))
      have e : (Instr.call dst fn [a, b]).text.toList =
          dst.toList ++ (" = call double @llvm." ++ fn ++ ".f64(").toList ++
          ("double ".toList ++ a.toList ++ ", ".toList) ++ ("double ".toList ++ b.toList ++ ")".toList) := by
        simp [Instr.text, String.toList_intercalate, List.intercalate]
      rw [e]
      have := (((lexes_localName h1).append ho).append
        ((hd.appendW ha).sep (by decide) hc)).append ((hd.appendW hb).sep (by decide) hp)
      exact this.weak
    · obtain ⟨a, rfl⟩ : ∃ a, args = [a] := by
        match args, hlen with
        | [a], _ => exact ⟨a, rfl⟩
      have ha := lexes_operand (h2 a (by simp))
      have e : (Instr.call dst fn [a]).text.toList =
          dst.toList ++ (" = call double @llvm." ++ fn ++ ".f64(").toList ++
          ("double ".toList ++ a.toList ++ ")".toList) := by
        simp [Instr.text, String.toList_intercalate, List.intercalate]
      rw [e]
      have := ((lexes_localName h1).append ho).append ((hd.appendW ha).sep (by decide) hp)
      exact this.weak
  | gep dst base index =>
    obtain ⟨h1, h2⟩ := h
    have e : (Instr.gep dst base index).text.toList =
        dst.toList ++ (" = getelementptr double, double* ").toList ++ base.toList ++
        ", i32 ".toList ++ (toString index).toList := by
      simp [Instr.text]
    rw [e]
    have := ((((lexes_localName h1).append (lexes_lit " = getelementptr double, double* "
      [.punct '=', kw "getelementptr", kw "double", .punct ',', kw "double", .punct '*']
      (by decide))).append (lexes_localName h2)).append
      (lexes_lit ", i32 " [.punct ',', kw "i32"] (by decide))).appendW (lexes_nat index)
    exact this
  | store value ptr =>
    obtain ⟨h1, h2⟩ := h
    have e : (Instr.store value ptr).text.toList =
        ("store double ".toList ++ value.toList ++ ", double* ".toList) ++ ptr.toList := by
      simp [Instr.text]
    rw [e]
    have := (((lexes_lit "store double " [kw "store", kw "double"] (by decide)).appendW
      (lexes_operand h1)).sep (by decide)
      (lexes_lit ", double* " [.punct ',', kw "double", .punct '*'] (by decide))).append
      (lexes_localName h2)
    exact this.weak
  | ret value =>
    have e : (Instr.ret value).text.toList = "ret double ".toList ++ value.toList := by
      simp [Instr.text]
    rw [e]
    exact (lexes_lit "ret double " [kw "ret", kw "double"] (by decide)).appendW (lexes_operand h)
  | retVoid =>
    have e : (Instr.retVoid).text.toList = "ret ".toList ++ "void".toList := by
      simp [Instr.text]
    rw [e]
    exact (lexes_lit "ret " [kw "ret"] (by decide)).appendW
      (lexes_word (w := "void".toList) (by decide) (by decide))

/-! ### Parser -/

theorem expect_self (t : Tok) (rest : List Tok) : expect t (t :: rest) = some rest := by
  simp [expect]

theorem parseTyped_opTok {u : String} (h : Writable u) (rest : List Tok) :
    parseTyped (kw "double" :: opTok u :: rest) = some (u, rest) := by
  unfold parseTyped
  rw [expect_self]
  exact parseOperand_opTok h rest

theorem parseInstr_toks {i : Instr} (h : InstrWritable i) (rest : List Tok) :
    parseInstr (instrToks i ++ rest) = some (i, rest) := by
  cases i with
  | arith dst op operands =>
    obtain ⟨h1, h2, h3, h4⟩ := h
    obtain ⟨a, b, rfl⟩ : ∃ a b, operands = [a, b] := by
      match operands, h3 with
      | [a, b], _ => exact ⟨a, b, rfl⟩
    have ha := parseTyped_opTok (h4 a (by simp))
    have hb := parseOperand_opTok (h4 b (by simp))
    obtain ⟨s, hs, hd⟩ := opTok_localName h1
    have hop : op.toList = "fadd".toList ∨ op.toList = "fmul".toList := by
      rcases h2 with rfl | rfl <;> simp
    simp only [instrToks, List.map_cons, List.map_nil, commaToks, List.append_assoc, List.cons_append, List.nil_append, List.append_nil, hs,
      parseInstr, expect_self, Option.bind_eq_bind, Option.bind_some, parseRhs, if_pos hop, ha, hb,
      hd, String.ofList_toList]
    rfl
  | call dst fn args =>
    obtain ⟨h1, h2, h3⟩ := h
    obtain ⟨s, hs, hd⟩ := opTok_localName h1
    have hi : intrinsic ("llvm." ++ fn ++ ".f64").toList = some fn := by
      rcases h3 with ⟨rfl, _⟩ | ⟨rfl | rfl, _⟩ <;> decide
    have n1 : ¬ ("call".toList = "fadd".toList ∨ "call".toList = "fmul".toList) := by decide
    rcases h3 with ⟨_, hlen⟩ | ⟨_, hlen⟩
    · obtain ⟨a, b, rfl⟩ : ∃ a b, args = [a, b] := by
        match args, hlen with
        | [a, b], _ => exact ⟨a, b, rfl⟩
      have ha := parseTyped_opTok (h2 a (by simp))
      have hb := parseTyped_opTok (h2 b (by simp))
      simp only [instrToks, List.map_cons, List.map_nil, commaToks, List.append_assoc, List.cons_append, List.nil_append, List.append_nil, hs,
        parseInstr, expect_self, Option.bind_eq_bind, Option.bind_some, parseRhs, if_neg n1,
        if_true, hi, ha, hd, List.length_cons, parseArgs, hb]
      rfl
    · obtain ⟨a, rfl⟩ : ∃ a, args = [a] := by
        match args, hlen with
        | [a], _ => exact ⟨a, rfl⟩
      have ha := parseTyped_opTok (h2 a (by simp))
      simp only [instrToks, List.map_cons, List.map_nil, commaToks, List.append_assoc, List.cons_append, List.nil_append, List.append_nil, hs,
        parseInstr, expect_self, Option.bind_eq_bind, Option.bind_some, parseRhs, if_neg n1,
        if_true, hi, ha, hd, List.length_cons, parseArgs]
      rfl
  | gep dst base index =>
    obtain ⟨h1, h2⟩ := h
    obtain ⟨s, hs, hd⟩ := opTok_localName h1
    obtain ⟨s', hs', hd'⟩ := opTok_localName h2
    have n1 : ¬ ("getelementptr".toList = "fadd".toList ∨
      "getelementptr".toList = "fmul".toList) := by decide
    have n2 : ¬ ("getelementptr".toList = "call".toList) := by decide
    simp only [instrToks, List.cons_append, List.nil_append, hs, hs', parseInstr, expect_self,
      Option.bind_eq_bind, Option.bind_some, parseRhs, if_neg n1, if_neg n2, if_true, hd, hd',
      parseNat_toString]
    rfl
  | store value ptr =>
    obtain ⟨h1, h2⟩ := h
    obtain ⟨s, hs, hd⟩ := opTok_localName h2
    have ha := parseTyped_opTok h1
    simp only [instrToks, List.cons_append, List.nil_append, hs, parseInstr, expect_self,
      Option.bind_eq_bind, Option.bind_some, if_true, hd, ha]
    rfl
  | ret value =>
    have ha := parseOperand_opTok h
    have n1 : ¬ ("ret".toList = "store".toList) := by decide
    have n2 : ¬ ("double".toList = "void".toList) := by decide
    simp only [instrToks, List.cons_append, List.nil_append, parseInstr, if_neg n1, if_neg n2,
      if_true, ha, Option.bind_eq_bind, Option.bind_some]
    rfl
  | retVoid =>
    have n1 : ¬ ("ret".toList = "store".toList) := by decide
    simp only [instrToks, List.cons_append, List.nil_append, parseInstr, if_neg n1, if_true]

/-! ### Whole modules -/

theorem intercalate_cons_flatMap {α : Type} (sep x : List α) (xs : List (List α)) :
    List.intercalate sep (x :: xs) = x ++ xs.flatMap (sep ++ ·) := by
  induction xs generalizing x with
  | nil => simp [List.intercalate]
  | cons y ys ih =>
    have : List.intercalate sep (x :: y :: ys) = x ++ sep ++ List.intercalate sep (y :: ys) := by
      simp [List.intercalate]
    rw [this, ih]
    simp

/-- Pieces of text with a separator that ends names. -/
theorem lexesW_intercalate {α : Type} {c : Char} {m : List Char} {us : List Tok}
    (hc : isNameChar c = false) (hm : Lexes (c :: m) us) (text : α → List Char)
    (toks : α → List Tok) (l : List α) (h : ∀ a ∈ l, LexesW (text a) (toks a)) :
    LexesW (List.intercalate (c :: m) (l.map text)) (List.intercalate us (l.map toks)) := by
  cases l with
  | nil =>
    intro d rest _
    simp [List.intercalate, preToks_nil]
  | cons a l =>
    rw [List.map_cons, List.map_cons, intercalate_cons_flatMap, intercalate_cons_flatMap]
    induction l generalizing a with
    | nil => simpa using h a (by simp)
    | cons b l ih =>
      have h1 := h a (by simp)
      have h2 := ih b (fun x hx => h x (by simp only [List.mem_cons] at hx ⊢; tauto))
      have := (h1.sep hc hm).appendW h2
      simpa using this

theorem parseBody_toks (body : List Instr) (h : ∀ i ∈ body, InstrWritable i) :
    ∀ fuel, body.length < fuel →
      parseBody fuel (body.flatMap instrToks ++ [.punct '}']) = some body := by
  induction body with
  | nil =>
    intro fuel hf
    obtain ⟨k, rfl⟩ : ∃ k, fuel = k + 1 := ⟨fuel - 1, by simp at hf; omega⟩
    rfl
  | cons i body ih =>
    intro fuel hf
    obtain ⟨k, rfl⟩ : ∃ k, fuel = k + 1 := ⟨fuel - 1, by simp at hf; omega⟩
    have hi := h i (by simp)
    have hp := parseInstr_toks hi (body.flatMap instrToks ++ [.punct '}'])
    rw [List.flatMap_cons, List.append_assoc]
    unfold parseBody
    split
    · rename_i he
      rw [he] at hp
      cases hp
    · rw [hp]
      simp only [Option.bind_eq_bind, Option.bind_some]
      rw [ih (fun j hj => h j (by simp [hj])) k (by simp at hf; omega)]
      rfl

theorem instrToks_length (i : Instr) : 1 ≤ (instrToks i).length := by
  cases i <;> simp [instrToks]

theorem flatMap_toks_length (body : List Instr) :
    body.length ≤ (body.flatMap instrToks).length := by
  induction body with
  | nil => simp
  | cons i body ih =>
    have := instrToks_length i
    simp only [List.flatMap_cons, List.length_append, List.length_cons]
    omega

/-- The tokens of a parameter. -/
def paramToks (u : String) : List Tok := [kw "double", opTok u]

theorem parseParams_rest (ps : List String) (h : ∀ u ∈ ps, LocalName u) (rest : List Tok) :
    ∀ fuel, ps.length < fuel →
      parseParams fuel false (ps.flatMap (fun u => .punct ',' :: paramToks u) ++ .punct ')' :: rest) =
        some (ps, rest) := by
  induction ps with
  | nil =>
    intro fuel hf
    obtain ⟨k, rfl⟩ : ∃ k, fuel = k + 1 := ⟨fuel - 1, by simp at hf; omega⟩
    rfl
  | cons u ps ih =>
    intro fuel hf
    obtain ⟨k, rfl⟩ : ∃ k, fuel = k + 1 := ⟨fuel - 1, by simp at hf; omega⟩
    obtain ⟨s, hs, hd⟩ := opTok_localName (h u (by simp))
    have ih' := ih (fun j hj => h j (by simp [hj])) k (by simp at hf; omega)
    simp only [List.flatMap_cons, paramToks, hs, List.cons_append, List.nil_append] at ih' ⊢
    simp [parseParams, expect, ih', hd]

theorem parseParams_first (ps : List String) (h : ∀ u ∈ ps, LocalName u) (rest : List Tok)
    (fuel : Nat) (hf : ps.length < fuel) :
    parseParams fuel true (List.intercalate [.punct ','] (ps.map paramToks) ++ .punct ')' :: rest) =
      some (ps, rest) := by
  obtain ⟨k, rfl⟩ : ∃ k, fuel = k + 1 := ⟨fuel - 1, by omega⟩
  cases ps with
  | nil => rfl
  | cons u ps =>
    obtain ⟨s, hs, hd⟩ := opTok_localName (h u (by simp))
    have ih' := parseParams_rest ps (fun j hj => h j (by simp [hj])) rest k (by simp at hf; omega)
    rw [List.map_cons, intercalate_cons_flatMap]
    have e : (ps.map paramToks).flatMap ([Tok.punct ','] ++ ·) =
        ps.flatMap (fun u => .punct ',' :: paramToks u) := by
      rw [List.flatMap_map]; rfl
    rw [e]
    simp only [paramToks, hs, List.cons_append, List.nil_append] at ih' ⊢
    simp [parseParams, expect, ih', hd]

/-- The tokens of the signature. -/
def sigToks (fn : IRFunction) : List Tok :=
  [kw "define", kw (if fn.out then "void" else "double"), .glob "jit_func1".toList, .punct '('] ++
    List.intercalate [.punct ','] ((if fn.out then [[kw "double", .punct '*', opTok outName]] else []) ++
      fn.params.map paramToks) ++ [.punct ')']

theorem lexesW_param {u : String} (h : LocalName u) : LexesW ("double " ++ u).toList (paramToks u) := by
  rw [String.toList_append]
  exact ((lexes_lit "double " [kw "double"] (by decide)).append (lexes_localName h)).weak

theorem localName_out : LocalName outName := ⟨"_out", ⟨by decide, by decide⟩, rfl⟩

theorem lexesW_sig (fn : IRFunction) (h : ∀ u ∈ fn.params, LocalName u) :
    LexesW fn.signature.toList (sigToks fn) := by
  obtain ⟨out, ps, body⟩ := fn
  simp only at h
  have hcomma := lexes_lit ", " [Tok.punct ','] (by decide)
  have hp : Lexes (")".toList) [Tok.punct ')'] := lexes_lit _ _ (by decide)
  have hout : LexesW ("double* " ++ outName).toList [kw "double", Tok.punct '*', opTok outName] := by
    rw [String.toList_append]
    exact ((lexes_lit "double* " [kw "double", Tok.punct '*'] (by decide)).append
      (lexes_localName localName_out)).weak
  have hargs : LexesW (List.intercalate ", ".toList
      (((if out then ["double* " ++ outName] else []) ++ ps.map ("double " ++ ·)).map String.toList))
      (List.intercalate [Tok.punct ','] ((if out then [[kw "double", Tok.punct '*', opTok outName]] else []) ++
        ps.map paramToks)) := by
    have key := lexesW_intercalate (α := List Char × List Tok) (c := ',') (m := [' ']) (by decide)
      hcomma Prod.fst Prod.snd
      ((if out then [(("double* " ++ outName).toList, [kw "double", Tok.punct '*', opTok outName])]
        else []) ++ ps.map (fun u => (("double " ++ u).toList, paramToks u))) (by
        intro a ha
        rcases List.mem_append.1 ha with ha | ha
        · cases out
          · cases ha
          · obtain rfl := List.mem_singleton.1 ha
            exact hout
        · obtain ⟨u, hu, rfl⟩ := List.mem_map.1 ha
          exact lexesW_param (h u hu))
    cases out
    · simpa [Function.comp_def] using key
    · simpa [Function.comp_def] using key
  unfold IRFunction.signature
  simp only [String.toList_append, String.toList_intercalate]
  have e1 : "define ".toList ++ "double".toList ++ " @\"jit_func1\"(".toList =
      "define double @\"jit_func1\"(".toList := by decide
  have e2 : "define ".toList ++ "void".toList ++ " @\"jit_func1\"(".toList =
      "define void @\"jit_func1\"(".toList := by decide
  generalize List.intercalate ", ".toList _ = T at hargs ⊢
  cases out
  · simp only [Bool.false_eq_true, if_false]
    rw [e1]
    exact (((lexes_lit "define double @\"jit_func1\"(" [kw "define", kw "double",
      .glob "jit_func1".toList, Tok.punct '('] (by decide)).appendW hargs).sep (by decide) hp).weak
  · simp only [if_true]
    rw [e2]
    exact (((lexes_lit "define void @\"jit_func1\"(" [kw "define", kw "void",
      .glob "jit_func1".toList, Tok.punct '('] (by decide)).appendW hargs).sep (by decide) hp).weak

theorem parseFunction_toks (fn : IRFunction) (hp : ∀ u ∈ fn.params, LocalName u)
    (hb : ∀ i ∈ fn.body, InstrWritable i) :
    parseFunction (sigToks fn ++ Tok.punct '{' :: (fn.body.flatMap instrToks ++ [Tok.punct '}'])) =
      some fn := by
  obtain ⟨out, ps, body⟩ := fn
  simp only at hp hb
  have hbody := parseBody_toks body hb (body.flatMap instrToks ++ [Tok.punct '}']).length (by
    have := flatMap_toks_length body
    simp only [List.length_append, List.length_cons, List.length_nil]; omega)
  have hl : ∀ ps : List String, ps.length ≤ (ps.flatMap (fun u => Tok.punct ',' :: paramToks u)).length := by
    intro ps
    induction ps with
    | nil => simp
    | cons u ps ih => simp only [List.flatMap_cons, List.length_append, List.length_cons]; omega
  have hl' : ∀ ps : List String, ps.length ≤ (List.intercalate [Tok.punct ','] (ps.map paramToks)).length := by
    intro ps
    cases ps with
    | nil => simp
    | cons u ps =>
      rw [List.map_cons, intercalate_cons_flatMap, List.flatMap_map]
      have := hl ps
      simp only [paramToks, List.cons_append, List.nil_append, List.length_append,
        List.length_cons, List.length_nil] at this ⊢
      omega
  cases out
  · have h1 := parseParams_first ps hp (Tok.punct '{' :: (body.flatMap instrToks ++ [Tok.punct '}']))
      (List.intercalate [Tok.punct ','] (ps.map paramToks) ++
        Tok.punct ')' :: Tok.punct '{' :: (body.flatMap instrToks ++ [Tok.punct '}'])).length (by
        have := hl' ps
        simp only [List.length_append, List.length_cons]; omega)
    simp only [sigToks, parseFunction, Bool.false_eq_true, if_false, List.nil_append,
      List.append_assoc, List.cons_append, expect_self, Option.bind_eq_bind, Option.bind_some,
      if_true, h1, hbody]
    rfl
  · have e : List.intercalate [Tok.punct ','] ([kw "double", Tok.punct '*', opTok outName] ::
        ps.map paramToks) = kw "double" :: Tok.punct '*' :: .loc "_out".toList ::
        ps.flatMap (fun u => Tok.punct ',' :: paramToks u) := by
      rw [intercalate_cons_flatMap, List.flatMap_map]
      rfl
    have h1 := parseParams_rest ps hp (Tok.punct '{' :: (body.flatMap instrToks ++ [Tok.punct '}']))
      (ps.flatMap (fun u => Tok.punct ',' :: paramToks u) ++
        Tok.punct ')' :: Tok.punct '{' :: (body.flatMap instrToks ++ [Tok.punct '}'])).length (by
        have := hl ps
        simp only [List.length_append, List.length_cons]; omega)
    have n1 : ¬ ("void".toList = "double".toList) := by decide
    simp only [sigToks, parseFunction, if_true, e, List.nil_append, List.append_assoc,
      List.cons_append, expect_self, Option.bind_eq_bind, Option.bind_some, if_neg n1, h1, hbody]
    rfl

/-- The declared functions. -/
def declared : List (String × Nat) := [("llvm.pow.f64", 2), ("llvm.sin.f64", 1), ("llvm.cos.f64", 1)]

/-- The tokens of the header. -/
def headerToks : List Tok :=
  [kw "target", kw "triple", Tok.punct '=', .str "unknown-unknown-unknown".toList,
   kw "target", kw "datalayout", Tok.punct '=', .str [],
   kw "declare", kw "double", .glob "llvm.pow.f64".toList, Tok.punct '(', kw "double", .loc "Val1".toList,
     Tok.punct ',', kw "double", .loc "Val2".toList, Tok.punct ')',
   kw "declare", kw "double", .glob "llvm.sin.f64".toList, Tok.punct '(', kw "double", .loc "Val".toList,
     Tok.punct ')',
   kw "declare", kw "double", .glob "llvm.cos.f64".toList, Tok.punct '(', kw "double", .loc "Val".toList,
     Tok.punct ')']

theorem lexes_header : Lexes llvmHeader.toList headerToks := .of_run (by decide +kernel)

theorem parseHeader_toks (k : Nat) (rest : List Tok) :
    parseHeader (k + 6) (headerToks ++ kw "define" :: rest) = some (declared, kw "define" :: rest) := by
  rfl

/-- The text of a function that can be written is read as that function. -/
theorem parseModule_text (fn : IRFunction) (hp : ∀ u ∈ fn.params, LocalName u)
    (hb : ∀ i ∈ fn.body, InstrWritable i) : parseModule fn.text = some (declared, fn) := by
  have hlines : LexesW (List.intercalate "\n".toList
      (([fn.signature, "{"] ++ fn.body.map Instr.text ++ ["}"]).map String.toList))
      (sigToks fn ++ Tok.punct '{' :: (fn.body.flatMap instrToks ++ [Tok.punct '}'])) := by
    have key := lexesW_intercalate (α := List Char × List Tok) (c := '\n') (m := []) (us := [])
      (by decide) (.of_run (by decide)) Prod.fst Prod.snd
      ((fn.signature.toList, sigToks fn) :: ("{".toList, [Tok.punct '{']) ::
        (fn.body.map (fun i => (i.text.toList, instrToks i)) ++ [("}".toList, [Tok.punct '}'])])) (by
        intro a ha
        rcases List.mem_cons.1 ha with rfl | ha
        · exact lexesW_sig fn hp
        rcases List.mem_cons.1 ha with rfl | ha
        · exact (lexes_lit "{" _ (by decide)).weak
        rcases List.mem_append.1 ha with ha | ha
        · obtain ⟨i, hi, rfl⟩ := List.mem_map.1 ha
          exact lexes_instr (hb i hi)
        · obtain rfl := List.mem_singleton.1 ha
          exact (lexes_lit "}" _ (by decide)).weak)
    rw [List.map_cons (f := Prod.snd), intercalate_cons_flatMap] at key
    simpa [Function.comp_def, List.flatMap_map, List.flatMap_def] using key
  have hlex : lexText fn.text = some (headerToks ++
      (sigToks fn ++ Tok.punct '{' :: (fn.body.flatMap instrToks ++ [Tok.punct '}']))) := by
    unfold lexText IRFunction.text
    rw [String.toList_append, String.toList_intercalate, List.append_assoc, lexes_header,
      hlines '\n' [] (by decide)]
    have : lexRun .idle ['\n'] = some ([], .idle) := by decide
    rw [this]
    simp [preToks]
  have hsig : ∃ rest, sigToks fn ++ Tok.punct '{' :: (fn.body.flatMap instrToks ++ [Tok.punct '}']) =
      kw "define" :: rest := ⟨_, rfl⟩
  have hfun := parseFunction_toks fn hp hb
  obtain ⟨rest, hrest⟩ := hsig
  unfold parseModule
  rw [hlex, hrest]
  rw [hrest] at hfun
  simp only [Option.bind_eq_bind, Option.bind_some]
  have hk : (headerToks ++ kw "define" :: rest).length = (rest.length + 27) + 6 := by
    simp [headerToks]
  rw [hk, parseHeader_toks]
  simp only [Option.bind_some, hfun]
  rfl

end Verif
