import Verif.Lemmas.Double
import Verif.Model.Repr
import Verif.Spec.PyRead

/-!
# Lemmas for C54: reading back the raw representation
-/

namespace Verif
open Spec

/-! ### Lexer -/

theorem pRun_append (s : PLex) (a b : List Char) :
    pRun s (a ++ b) = (pRun s a).bind fun r => (pRun r.2 b).map fun u => (r.1 ++ u.1, u.2) := by
  induction a generalizing s with
  | nil => simp [pRun]
  | cons c a ih =>
    simp only [List.cons_append, pRun, Option.bind_eq_bind]
    cases pStep s c with
    | none => rfl
    | some r =>
      simp only [Option.bind_some, ih]
      cases pRun r.2 a with
      | none => rfl
      | some u =>
        simp only [Option.bind_some, Option.pure_def]
        cases pRun u.2 b with
        | none => rfl
        | some w => simp

/-- The tokens `ts` of a text that ends between tokens. -/
def PLexes (w : List Char) (ts : List PTok) : Prop := pRun .idle w = some (ts, .idle)

theorem PLexes.append {a b : List Char} {ts us : List PTok} (h : PLexes a ts) (h' : PLexes b us) :
    PLexes (a ++ b) (ts ++ us) := by
  unfold PLexes at *
  rw [pRun_append, h]
  simp [h']

theorem pRun_steps {s s' s'' : PLex} {a b : List Char} {ts us : List PTok}
    (h : pRun s a = some (ts, s')) (h' : pRun s' b = some (us, s'')) :
    pRun s (a ++ b) = some (ts ++ us, s'') := by
  rw [pRun_append, h]; simp [h']

theorem pRun_cons {s s' s'' : PLex} {c : Char} {b : List Char} {ts us : List PTok}
    (h : pStep s c = some (ts, s')) (h' : pRun s' b = some (us, s'')) :
    pRun s (c :: b) = some (ts ++ us, s'') := by
  simp [pRun, h, h']

/-! ### Strings -/

theorem pRun_hex (q : Char) (acc : List Char) (w v n : Nat) (c : Char)
    (h : v * 16 ^ (w + 1) + n % 16 ^ (w + 1) = c.toNat) :
    pRun (.hex q acc w v) (hexPad (w + 1) n) = some ([], .str q (acc ++ [c])) := by
  induction w generalizing v with
  | zero =>
    have hd := hexDigit_digitChar (n / 16 ^ 0 % 16) (Nat.mod_lt _ (by decide))
    have hv : 16 * v + n / 16 ^ 0 % 16 = c.toNat := by
      simp at h ⊢; omega
    simp only [hexPad, pRun, pStep, hd, hv]
    have : c.toNat.isValidChar := c.valid
    simp [this, Char.ofNat_toNat]
  | succ w ih =>
    have hd := hexDigit_digitChar (n / 16 ^ (w + 1) % 16) (Nat.mod_lt _ (by decide))
    have key : (16 * v + n / 16 ^ (w + 1) % 16) * 16 ^ (w + 1) + n % 16 ^ (w + 1) = c.toNat := by
      rw [← h]
      have h1 : 16 ^ (w + 1 + 1) = 16 ^ (w + 1) * 16 := Nat.pow_succ ..
      rw [h1, Nat.mod_mul]
      generalize n / 16 ^ (w + 1) % 16 = d
      generalize n % 16 ^ (w + 1) = r
      generalize 16 ^ (w + 1) = p
      rw [Nat.add_mul, Nat.mul_comm d p, Nat.mul_comm 16 v, Nat.mul_assoc, Nat.mul_comm 16 p]
      omega
    have ih := ih _ key
    rw [hexPad]
    exact pRun_cons (us := []) (ts := []) (by simp [pStep, hd]) ih

theorem pRun_hex' (q : Char) (acc : List Char) (w : Nat) (c : Char) (h : c.toNat < 16 ^ (w + 1)) :
    pRun (.hex q acc w 0) (hexPad (w + 1) c.toNat) = some ([], .str q (acc ++ [c])) :=
  pRun_hex q acc w 0 _ c (by simp [Nat.mod_eq_of_lt h])

theorem char_toNat_lt (c : Char) : c.toNat < 16 ^ 8 := by
  have := c.val.toNat_lt
  exact this

theorem pRun_char (printable : Char → Bool) (q : Char) (hq : q = '\'' ∨ q = '"') (acc : List Char)
    (c : Char) :
    pRun (.str q acc) (pyReprChar printable q c) = some ([], .str q (acc ++ [c])) := by
  have hqb : ('\\' : Char) ≠ q := by rcases hq with rfl | rfl <;> decide
  have hb : ∀ {d : Char} {cs : List Char} {r},
      pRun (.esc q acc) (d :: cs) = some ([], r) →
      pRun (.str q acc) ('\\' :: d :: cs) = some ([], r) := by
    intro d cs r h
    exact pRun_cons (us := []) (ts := []) (by simp [pStep, hqb]) h
  unfold pyReprChar
  split
  · rename_i h
    apply hb
    have : c = '\\' ∨ c = '\'' ∨ c = '"' := by
      rcases h with rfl | h
      · exact .inr hq
      · exact .inl h
    simp [pRun, pStep, this]
  · rename_i h
    simp only [not_or] at h
    split
    · rename_i h'; subst h'; exact hb rfl
    split
    · rename_i h'; subst h'; exact hb rfl
    split
    · rename_i h'; subst h'; exact hb rfl
    rename_i ht hn hr
    have hself : c.toNat ≠ 0 → pRun (.str q acc) [c] = some ([], .str q (acc ++ [c])) := by
      intro h0
      simp [pRun, pStep, h.1, h.2, hn, hr, h0]
    split
    · exact hb (pRun_cons (ts := []) (us := []) rfl (pRun_hex' q acc 1 c (by omega)))
    rename_i h32
    split
    · exact hself (by omega)
    split
    · exact hself (by omega)
    split
    · exact hb (pRun_cons (ts := []) (us := []) rfl (pRun_hex' q acc 1 c (by omega)))
    split
    · exact hb (pRun_cons (ts := []) (us := []) rfl (pRun_hex' q acc 3 c (by omega)))
    · exact hb (pRun_cons (ts := []) (us := []) rfl (pRun_hex' q acc 7 c (char_toNat_lt c)))

theorem pRun_chars (printable : Char → Bool) (q : Char) (hq : q = '\'' ∨ q = '"')
    (cs acc : List Char) :
    pRun (.str q acc) (cs.flatMap (pyReprChar printable q)) = some ([], .str q (acc ++ cs)) := by
  induction cs generalizing acc with
  | nil => simp [pRun]
  | cons c cs ih =>
    rw [List.flatMap_cons]
    have := pRun_steps (pRun_char printable q hq acc c) (ih (acc ++ [c]))
    simpa using this

theorem pyQuote_cases (s : List Char) : pyQuote s = '\'' ∨ pyQuote s = '"' := by
  unfold pyQuote; split
  · exact .inr rfl
  · exact .inl rfl

/-- A string literal is read as the string. -/
theorem pylexes_str (printable : Char → Bool) (s : String) :
    PLexes (pyReprStr printable s).toList [.str s] := by
  unfold pyReprStr PLexes
  have hq := pyQuote_cases s.toList
  generalize pyQuote s.toList = q at hq
  rw [String.toList_ofList, List.cons_append]
  refine pRun_cons (ts := []) (us := [.str s]) (s' := .str q []) ?_ ?_
  · rcases hq with rfl | rfl <;> rfl
  · refine pRun_steps (ts := []) (us := [.str s]) (pRun_chars printable q hq s.toList []) ?_
    simp [pRun, pStep]

/-! ### Names and numbers -/

theorem pRun_name (acc w : List Char) (hw : ∀ c ∈ w, nameChar c = true) :
    pRun (.name acc) w = some ([], .name (acc ++ w)) := by
  induction w generalizing acc with
  | nil => simp [pRun]
  | cons c w ih =>
    have := pRun_cons (ts := []) (us := []) (s := .name acc) (c := c) (s' := .name (acc ++ [c]))
      (by simp [pStep, hw c (by simp)]) (ih (acc ++ [c]) (fun d hd => hw d (by simp [hd])))
    simpa using this

theorem nameStart_ne {c : Char} (h : nameStart c = true) :
    c ≠ ' ' ∧ isOp c = false ∧ c ≠ '\'' ∧ c ≠ '"' := by
  have ne : ∀ d : Char, nameStart d = false → c ≠ d := by
    intro d hd e; subst e; rw [h] at hd; cases hd
  refine ⟨ne _ (by decide), ?_, ne _ (by decide), ne _ (by decide)⟩
  simp [isOp, ne '(' (by decide), ne ')' (by decide), ne ',' (by decide), ne '-' (by decide)]

/-- A name and an opening bracket. -/
theorem pylexes_name {s : String} (h : IsIdentifier s) :
    PLexes (s ++ "(").toList [.name s, .op '('] := by
  obtain ⟨⟨⟨c, hc, hc'⟩, hall⟩, hkw⟩ := h
  unfold PLexes
  rw [String.toList_append]
  cases hs : s.toList with
  | nil => rw [hs] at hc; cases hc
  | cons d w =>
    rw [hs] at hc hall
    obtain rfl : d = c := by simpa using hc
    have hst : nameStart d = true := by
      rcases hc' with h | h <;> simp [nameStart, h]
    obtain ⟨n1, n2, n3, n4⟩ := nameStart_ne hst
    have hsl : String.ofList (d :: w) = s := by rw [← hs, String.ofList_toList]
    refine pRun_cons (ts := []) (us := [.name s, .op '(']) (s' := .name [d]) ?_ ?_
    · simp [pStep, pIdle, n1, n2, n3, n4, hst]
    · refine pRun_steps (ts := []) (us := [.name s, .op '('])
        (pRun_name [d] w (fun c hc => ?_)) ?_
      · rcases hall c (by simp [hc]) with h | h <;> simp [nameChar, h]
      · have e : "(".toList = ['('] := rfl
        have hp : pName (d :: w) = some (.name s) := by simp [pName, hsl, hkw]
        have hi : pIdle '(' = some ([.op '('], .idle) := by decide
        have hnc : nameChar '(' = false := by decide
        simp [e, pRun, pStep, hp, hi, hnc]

theorem pRun_num (acc w : List Char) (hw : ∀ c ∈ w, c.isDigit = true) :
    pRun (.num acc) w = some ([], .num (acc ++ w)) := by
  induction w generalizing acc with
  | nil => simp [pRun]
  | cons c w ih =>
    have := pRun_cons (ts := []) (us := []) (s := .num acc) (c := c) (s' := .num (acc ++ [c]))
      (by simp [pStep, hw c (by simp)]) (ih (acc ++ [c]) (fun d hd => hw d (by simp [hd])))
    simpa using this

theorem nat_digits (n : Nat) : (toString n).toList = Nat.toDigits 10 n := by
  rw [Nat.toString_eq_ofList_toDigits, String.toList_ofList]

theorem toDigits_head (n : Nat) (hn : n ≠ 0) : (Nat.toDigits 10 n).head? ≠ some '0' := by
  induction n using Nat.strongRecOn with
  | _ n ih =>
    by_cases h : n < 10
    · rw [Nat.toDigits_of_lt_base h]
      have : ∀ k : Fin 10, k.val ≠ 0 → Nat.digitChar k.val ≠ '0' := by decide
      simpa using this ⟨n, h⟩ hn
    · rw [Nat.toDigits_of_base_le (by omega) (by omega)]
      have h2 := ih (n / 10) (by omega) (by omega)
      cases hd : Nat.toDigits 10 (n / 10) with
      | nil => exact absurd hd Nat.toDigits_ne_nil
      | cons c cs => rw [hd] at h2; simpa using h2

theorem pNum_digits (n : Nat) : pNum (Nat.toDigits 10 n) = some (.int n) := by
  unfold pNum
  have h1 : ¬ ((Nat.toDigits 10 n).head? = some '0' ∧ ∃ c ∈ Nat.toDigits 10 n, c ≠ '0') := by
    rintro ⟨h, c, hc, hne⟩
    by_cases hn : n = 0
    · subst hn
      have : Nat.toDigits 10 0 = ['0'] := by decide
      rw [this] at hc
      exact hne (by simpa using hc)
    · exact toDigits_head n hn h
  rw [if_neg h1]
  have := Nat.ofDigitChars_ten_toDigits (n := n)
  rw [Nat.ofDigitChars_eq_foldl] at this
  rw [this]

theorem digit_ne {c : Char} (h : c.isDigit = true) :
    c ≠ ' ' ∧ isOp c = false ∧ c ≠ '\'' ∧ c ≠ '"' ∧ nameStart c = false := by
  have ne : ∀ d : Char, d.isDigit = false → c ≠ d := by
    intro d hd e; subst e; rw [h] at hd; cases hd
  refine ⟨ne _ (by decide), ?_, ne _ (by decide), ne _ (by decide), ?_⟩
  · simp [isOp, ne '(' (by decide), ne ')' (by decide), ne ',' (by decide), ne '-' (by decide)]
  · simp only [nameStart, Bool.or_eq_false_iff, decide_eq_false_iff_not]
    refine ⟨?_, ne _ (by decide)⟩
    simp only [Char.isDigit, Bool.and_eq_true, decide_eq_true_eq] at h
    simp only [Char.isAlpha, Char.isUpper, Char.isLower, Bool.or_eq_false_iff,
      Bool.and_eq_false_iff, decide_eq_false_iff_not]
    have h1 : c.val.toNat ≤ 57 := h.2
    constructor
    · rintro ⟨h2, _⟩
      have : (65 : Nat) ≤ c.val.toNat := h2
      omega
    · left; intro h2
      have : (97 : Nat) ≤ c.val.toNat := h2
      omega

theorem pylexes_nat (n : Nat) : PLexes (toString n ++ ")").toList [.int n, .op ')'] := by
  unfold PLexes
  rw [String.toList_append, nat_digits]
  cases hs : Nat.toDigits 10 n with
  | nil => exact absurd hs Nat.toDigits_ne_nil
  | cons d w =>
    have hdig : ∀ c ∈ d :: w, c.isDigit = true := by
      rw [← hs]; intro c hc; exact Nat.isDigit_of_mem_toDigits (by decide) (by decide) hc
    have hd := hdig d (by simp)
    obtain ⟨n1, n2, n3, n4, n5⟩ := digit_ne hd
    refine pRun_cons (ts := []) (us := [.int n, .op ')']) (s' := .num [d]) ?_ ?_
    · simp [pStep, pIdle, n1, n2, n3, n4, n5, hd]
    · refine pRun_steps (ts := []) (us := [.int n, .op ')'])
        (pRun_num [d] w (fun c hc => hdig c (by simp [hc]))) ?_
      have e : ")".toList = [')'] := rfl
      have hp : pNum (d :: w) = some (.int n) := by rw [← hs]; exact pNum_digits n
      have hi : pIdle ')' = some ([.op ')'], .idle) := by decide
      have h1 : nameChar ')' = false := by decide
      have h2 : Char.isDigit ')' = false := by decide
      simp [e, pRun, pStep, hp, hi, h1, h2]

/-- The tokens of an integer. -/
def intToks : Int → List PTok
  | .ofNat n => [.int n]
  | .negSucc n => [.op '-', .int (n + 1)]

theorem pylexes_int (n : Int) : PLexes (toString n ++ ")").toList (intToks n ++ [.op ')']) := by
  cases n with
  | ofNat n => exact pylexes_nat n
  | negSucc n =>
    have e : toString (Int.negSucc n) = "-" ++ toString (n + 1) := rfl
    rw [e, String.append_assoc, String.toList_append]
    have h1 : PLexes "-".toList [.op '-'] := by unfold PLexes; decide
    exact h1.append (pylexes_nat (n + 1))

/-! ### Parser -/

mutual
/-- The tokens of an expression. -/
def pyToks : PyExp → List PTok
  | .int n => intToks n
  | .str s => [.str s]
  | .call f args => .name f :: .op '(' :: pyToksArgs args ++ [.op ')']
/-- Separated by commas. -/
def pyToksArgs : List PyExp → List PTok
  | [] => []
  | [e] => pyToks e
  | e :: e' :: es => pyToks e ++ .op ',' :: pyToksArgs (e' :: es)
end

theorem pyToks_ne (e : PyExp) : ∃ t ts, pyToks e = t :: ts ∧ t ≠ .op ')' := by
  cases e with
  | int n => cases n with
    | ofNat n => exact ⟨_, _, rfl, by simp⟩
    | negSucc n => exact ⟨_, _, rfl, by simp⟩
  | str s => exact ⟨_, _, rfl, by simp⟩
  | call f args => exact ⟨_, _, rfl, by simp⟩

theorem pExpr_call {k : Nat} {f : String} {r : List PTok} (h : ∀ r', r ≠ .op ')' :: r') :
    pExpr (k + 1) (.name f :: .op '(' :: r) =
      (pArgs k r).bind fun p => some (.call f p.1, p.2) := by
  rw [pExpr]
  · cases pArgs k r <;> rfl
  · intro r' h'; exact h r' h'

mutual
theorem pExpr_toks (e : PyExp) (k : Nat) (hk : (pyToks e).length ≤ k) (rest : List PTok) :
    pExpr k (pyToks e ++ rest) = some (e, rest) := by
  match e, k with
  | .int n, 0 => cases n <;> simp [pyToks, intToks] at hk
  | .str s, 0 => simp [pyToks] at hk
  | .call f args, 0 => simp [pyToks] at hk
  | .int (.ofNat n), k + 1 => simp [pyToks, intToks, pExpr]
  | .int (.negSucc n), k + 1 =>
    simp only [pyToks, intToks, List.cons_append, List.nil_append, pExpr]
    rfl
  | .str s, k + 1 => simp [pyToks, pExpr]
  | .call f [], k + 1 => simp [pyToks, pyToksArgs, pExpr]
  | .call f (a :: as), k + 1 =>
    have hne : ∀ r', pyToksArgs (a :: as) ++ [.op ')'] ++ rest ≠ .op ')' :: r' := by
      obtain ⟨t, ts, h1, h2⟩ := pyToks_ne a
      intro r' h
      cases as with
      | nil => simp only [pyToksArgs, h1, List.cons_append, List.cons.injEq] at h; exact h2 h.1
      | cons b bs => simp only [pyToksArgs, h1, List.cons_append, List.cons.injEq] at h; exact h2 h.1
    have e1 : pyToks (.call f (a :: as)) ++ rest =
        .name f :: .op '(' :: (pyToksArgs (a :: as) ++ [.op ')'] ++ rest) := by
      simp [pyToks]
    rw [e1, pExpr_call hne]
    have hk' : (pyToksArgs (a :: as)).length + 1 ≤ k := by
      simp [pyToks] at hk; omega
    have := pArgs_toks a as k hk' rest
    rw [List.append_assoc, List.singleton_append, this]
    rfl
theorem pArgs_toks (e : PyExp) (es : List PyExp) (k : Nat)
    (hk : (pyToksArgs (e :: es)).length + 1 ≤ k) (rest : List PTok) :
    pArgs k (pyToksArgs (e :: es) ++ .op ')' :: rest) = some (e :: es, rest) := by
  match es, k with
  | [], 0 => omega
  | _ :: _, 0 => omega
  | [], k + 1 =>
    simp only [pyToksArgs] at hk ⊢
    simp only [pArgs]
    rw [pExpr_toks e k (by omega) (.op ')' :: rest)]
    rfl
  | e' :: es, k + 1 =>
    simp only [pyToksArgs, List.length_append, List.length_cons] at hk
    have e1 : pyToksArgs (e :: e' :: es) ++ .op ')' :: rest =
        pyToks e ++ (.op ',' :: (pyToksArgs (e' :: es) ++ .op ')' :: rest)) := by
      simp [pyToksArgs]
    rw [e1]
    simp only [pArgs]
    obtain ⟨t, ts, h1, _⟩ := pyToks_ne e
    have h1' : 1 ≤ (pyToks e).length := by rw [h1]; simp
    rw [pExpr_toks e k (by omega)]
    simp only [Option.bind_eq_bind, Option.bind_some]
    rw [pArgs_toks e' es k (by omega) rest]
    rfl
end

/-- A text with the tokens of `e` is read as `e`. -/
theorem pParse_of_lexes {s : String} {e : PyExp} (h : PLexes s.toList (pyToks e)) :
    pParse s = some e := by
  have hsp : PLexes [' '] [] := by unfold PLexes; decide
  have := h.append hsp
  unfold PLexes at this
  unfold pParse pLex
  rw [this]
  simp only [List.append_nil, Option.bind_eq_bind, Option.bind_some]
  have h2 := pExpr_toks e (pyToks e).length (Nat.le_refl _) []
  rw [List.append_nil] at h2
  rw [h2]

/-! ### Representations -/

/-- A value as an expression. -/
def valExp : Val → PyExp
  | .int n => .int n
  | .str s => .str s

/-- An atom as an expression. -/
def atomExp (a : Atom Val) : PyExp := .call a.atomType.name [valExp a.value]

mutual
/-- A tree as an expression. -/
def treeExp : Tree Val → PyExp
  | .atom a => .call "Tr" [atomExp a]
  | .node cs => .call "Tree" (treeExps cs)
/-- Pointwise. -/
def treeExps : List (Tree Val) → List PyExp
  | [] => []
  | t :: ts => treeExp t :: treeExps ts
end

theorem pylexes_valRepr (printable : Char → Bool) (v : Val) :
    PLexes (valRepr printable v ++ ")").toList (pyToks (valExp v) ++ [.op ')']) := by
  cases v with
  | int n => exact pylexes_int n
  | str s =>
    rw [String.toList_append]
    have h2 : PLexes ")".toList [.op ')'] := by unfold PLexes; decide
    exact (pylexes_str printable s).append h2

theorem pylexes_atomRepr (printable : Char → Bool) (a : Atom Val) (h : IsIdentifier a.atomType.name) :
    PLexes (a.repr printable).toList (pyToks (atomExp a)) := by
  unfold Atom.repr AtomType.repr
  rw [String.append_assoc, String.toList_append]
  have := (pylexes_name h).append (pylexes_valRepr printable a.value)
  simpa [atomExp, pyToks, pyToksArgs] using this

theorem tr_identifier : IsIdentifier "Tr" := by
  refine ⟨⟨⟨'T', rfl, .inl (by decide)⟩, ?_⟩, by decide⟩
  intro c hc; left; revert c hc; decide

theorem tree_identifier : IsIdentifier "Tree" := by
  refine ⟨⟨⟨'T', rfl, .inl (by decide)⟩, ?_⟩, by decide⟩
  intro c hc; left; revert c hc; decide

theorem sym_identifier : IsIdentifier "Sym" := by
  refine ⟨⟨⟨'S', rfl, .inl (by decide)⟩, ?_⟩, by decide⟩
  intro c hc; left; revert c hc; decide

theorem pylexes_wrap {f : String} (hf : IsIdentifier f) {s : String} {ts : List PTok}
    (h : PLexes s.toList ts) :
    PLexes (f ++ "(" ++ s ++ ")").toList (.name f :: .op '(' :: ts ++ [.op ')']) := by
  have h2 : PLexes ")".toList [.op ')'] := by unfold PLexes; decide
  have := ((pylexes_name hf).append h).append h2
  simpa [String.toList_append] using this

theorem usesType_child {cs : List (Tree Val)} {c : Tree Val} {ty : AtomType} (hc : c ∈ cs)
    (h : UsesType c ty) : UsesType (.node cs) ty := by
  obtain ⟨v, h⟩ := h
  refine ⟨v, .down (by simp) ?_ h⟩
  cases cs with
  | nil => cases hc
  | cons => exact hc

theorem intercalate_cons (s t : String) (ts : List String) :
    String.intercalate ", " (s :: t :: ts) = s ++ ", " ++ String.intercalate ", " (t :: ts) := by
  simp [String.intercalate_cons_cons]

mutual
theorem pylexes_treeRepr (printable : Char → Bool) (t : Tree Val)
    (hty : ∀ ty, UsesType t ty → IsIdentifier ty.name) (s : String)
    (hs : treeRepr printable t = .ok s) : PLexes s.toList (pyToks (treeExp t)) := by
  match t with
  | .atom a =>
    rw [treeRepr] at hs
    obtain rfl := Except.ok.inj hs
    have ha := pylexes_atomRepr printable a (hty _ ⟨a.value, .refl (by simp)⟩)
    have := pylexes_wrap tr_identifier ha
    have e : "Tr(" = "Tr" ++ "(" := rfl
    rw [e]
    simpa [treeExp, pyToks, pyToksArgs] using this
  | .node [] => rw [treeRepr] at hs; cases hs
  | .node (c :: cs) =>
    rw [treeRepr] at hs
    cases hl : treeReprList printable (c :: cs) with
    | error e => rw [hl] at hs; cases hs
    | ok ss =>
      rw [hl] at hs
      obtain rfl := Except.ok.inj hs
      have hh := pylexes_treeReprList printable (c :: cs) (by simp)
        (fun c' hc' ty h => hty ty (usesType_child hc' h)) ss hl
      have := pylexes_wrap tree_identifier hh
      have e : "Tree(" = "Tree" ++ "(" := rfl
      rw [e]
      simpa [treeExp, pyToks] using this
theorem pylexes_treeReprList (printable : Char → Bool) (ts : List (Tree Val)) (hne : ts ≠ [])
    (hty : ∀ t ∈ ts, ∀ ty, UsesType t ty → IsIdentifier ty.name) (ss : List String)
    (hs : treeReprList printable ts = .ok ss) :
    PLexes (String.intercalate ", " ss).toList (pyToksArgs (treeExps ts)) := by
  match ts with
  | [] => exact absurd rfl hne
  | [t] =>
    rw [treeReprList] at hs
    cases ht : treeRepr printable t with
    | error e => rw [ht] at hs; cases hs
    | ok s =>
      rw [ht] at hs
      obtain rfl : [s] = ss := Except.ok.inj hs
      have := pylexes_treeRepr printable t (hty t (by simp)) s ht
      simpa [treeExps, pyToksArgs] using this
  | t :: t' :: ts =>
    rw [treeReprList] at hs
    cases ht : treeRepr printable t with
    | error e => rw [ht] at hs; cases hs
    | ok s =>
      rw [ht] at hs
      cases hl : treeReprList printable (t' :: ts) with
      | error e => rw [hl] at hs; cases hs
      | ok ss' =>
        rw [hl] at hs
        obtain rfl : s :: ss' = ss := Except.ok.inj hs
        have h1 := pylexes_treeRepr printable t (hty t (by simp)) s ht
        have h2 := pylexes_treeReprList printable (t' :: ts) (by simp)
          (fun u hu => hty u (by simp [List.mem_cons.1 hu])) ss' hl
        have hc : PLexes ", ".toList [.op ','] := by unfold PLexes; decide
        cases ss' with
        | nil =>
          rw [treeReprList] at hl
          cases h3 : treeRepr printable t' with
          | error e => rw [h3] at hl; cases hl
          | ok s' =>
            rw [h3] at hl
            cases h4 : treeReprList printable ts with
            | error e => rw [h4] at hl; cases hl
            | ok s'' => rw [h4] at hl; cases hl
        | cons s' ss' =>
          rw [intercalate_cons]
          have := (h1.append hc).append h2
          simpa [String.toList_append, treeExps, pyToksArgs] using this
end

/-! ### Evaluation -/

theorem evalAll_map {env : String → Option PyCallable} {es : List PyExp} {ts : List (Tree Val)}
    (h : PyExp.evalAll env es = some (ts.map .tree)) (htree : env "Tree" = some .tree) :
    PyExp.eval env (.call "Tree" es) = some (.tree (.node ts)) := by
  rw [PyExp.eval, htree, h]
  have : (ts.map PyValue.tree).mapM PyValue.asTree = some ts := by
    clear h
    induction ts with
    | nil => rfl
    | cons t ts ih => rw [List.map_cons, List.mapM_cons, ih]; rfl
  simp only [Option.bind_eq_bind, Option.bind_some, PyCallable.apply, this]
  rfl

mutual
theorem eval_treeExp {env : String → Option PyCallable} (htree : env "Tree" = some .tree)
    (htr : env "Tr" = some .tr) (t : Tree Val)
    (hty : ∀ ty, UsesType t ty → env ty.name = some (.atomType ty)) :
    PyExp.eval env (treeExp t) = some (.tree t) := by
  match t with
  | .atom a =>
    have ha := hty a.atomType ⟨a.value, .refl (by simp)⟩
    have hv : PyExp.eval env (valExp a.value) = some (.val a.value) := by
      cases a.value <;> simp [valExp, PyExp.eval]
    simp [treeExp, atomExp, PyExp.eval, PyExp.evalAll, htr, ha, hv, PyCallable.apply]
  | .node cs =>
    rw [treeExp]
    exact evalAll_map (eval_treeExps htree htr cs
      (fun c hc ty h => hty ty (usesType_child hc h))) htree
theorem eval_treeExps {env : String → Option PyCallable} (htree : env "Tree" = some .tree)
    (htr : env "Tr" = some .tr) (ts : List (Tree Val))
    (hty : ∀ t ∈ ts, ∀ ty, UsesType t ty → env ty.name = some (.atomType ty)) :
    PyExp.evalAll env (treeExps ts) = some (ts.map .tree) := by
  match ts with
  | [] => rfl
  | t :: ts =>
    rw [treeExps, PyExp.evalAll, eval_treeExp htree htr t (hty t (by simp)),
      eval_treeExps htree htr ts (fun u hu => hty u (by simp [hu]))]
    rfl
end

end Verif
