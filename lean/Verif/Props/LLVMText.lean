import Verif.Props.LLVMMatrix
import Verif.Lemmas.LLVMText

/-!
# C50: the text of the module

`Spec/LLVMText.lean` reads LLVM assembly.  The text the code generator hands to LLVM, read in this
way, is exactly the function whose execution C35 and C36 describe.
-/

set_option linter.unusedSimpArgs false

namespace Verif.Props
open Spec Expr

theorem writable_of_ssa {fn : IRFunction} (hs : SSA fn)
    (hg : ∀ i ∈ fn.body, (∀ d b k, i = .gep d b k → LocalName b) ∧ (∀ v p, i = .store v p → LocalName p)) :
    (∀ u ∈ fn.params, LocalName u) ∧ ∀ i ∈ fn.body, InstrWritable i := by
  refine ⟨fun u hu => hs.names u ?_, ?_⟩
  · simp [IRFunction.registers, hu]
  intro i hi
  have huse : ∀ u ∈ Instr.uses i, Writable u := by
    intro u hu
    obtain ⟨pre, post, hp⟩ := List.append_of_mem hi
    rcases hs.uses pre i post hp u hu with ⟨b, hb, _⟩ | h | h
    · exact Or.inr ⟨b, hb⟩
    · exact Or.inl (hs.names u (List.mem_append_left _ h))
    · refine Or.inl (hs.names u (List.mem_append_right _ ?_))
      rw [hp, List.filterMap_append]
      exact List.mem_append_left _ h
  have hdef : ∀ d, Instr.defs i = some d → LocalName d := fun d hd =>
    hs.names d (List.mem_append_right _ (List.mem_filterMap.2 ⟨i, hi, hd⟩))
  have har := hs.arity i hi
  cases i with
  | arith dst op operands => exact ⟨hdef dst rfl, har.1, har.2, huse⟩
  | call dst fn args => exact ⟨hdef dst rfl, huse, har⟩
  | gep dst base k => exact ⟨hdef dst rfl, (hg _ hi).1 dst base k rfl⟩
  | store v p => exact ⟨huse v (by simp [Instr.uses]), (hg _ hi).2 v p rfl⟩
  | ret v => exact huse v (by simp [Instr.uses])
  | retVoid => trivial

theorem declared_callees {fn : IRFunction} (hs : SSA fn) :
    ∀ i ∈ fn.body, ∀ c, Instr.callee i = some c →
      c ∈ [("llvm.pow.f64", 2), ("llvm.sin.f64", 1), ("llvm.cos.f64", 1)] := by
  intro i hi c hc
  have har := hs.arity i hi
  cases i with
  | call dst f args =>
    simp only [Instr.callee, Option.some.injEq] at hc
    subst hc
    rcases har with ⟨rfl, h⟩ | ⟨rfl | rfl, h⟩ <;> rw [h] <;> decide
  | arith => cases hc
  | gep => cases hc
  | store => cases hc
  | ret => cases hc
  | retVoid => cases hc

/-- **C50, expressions.** The text generated for an expression, when its names are legal (C34),
is a module that declares the functions it calls and whose function is the generated one. -/
theorem C50_text (symargs : List Expr) (e : Expr) (fn : IRFunction)
    (h : toLlvm symargs e = .ok fn) (hs : SSA fn) :
    parseModule fn.text =
      some ([("llvm.pow.f64", 2), ("llvm.sin.f64", 1), ("llvm.cos.f64", 1)], fn) := by
  obtain ⟨names, hn⟩ := names_of_ok h
  obtain ⟨u, hu, hck, hfn⟩ := toLlvm_inv hn h
  have := writable_of_ssa hs (by
    intro i hi
    rw [hfn] at hi
    rcases List.mem_append.1 hi with hi | hi
    · obtain ⟨t, _, rfl⟩ := List.mem_map.1 hi
      exact ⟨fun d b k he => absurd he (nodes_no_memory.1 d b k),
        fun v p he => absurd he (nodes_no_memory.2 v p)⟩
    · obtain rfl := List.mem_singleton.1 hi
      exact ⟨(fun _ _ _ he => by cases he), (fun _ _ he => by cases he)⟩)
  exact parseModule_text fn this.1 this.2

theorem storeCode_pointers (ncols : Nat) (value : Nat → String) :
    ∀ (l : List ((Nat × Nat) × Nat)) (c : Nat), ∀ i ∈ storeCode ncols value c l,
      (∀ d b k, i = .gep d b k → LocalName b) ∧ (∀ v p, i = .store v p → LocalName p)
  | [], c, i, hi => by cases hi
  | ((a, b), n) :: rest, c, i, hi => by
    simp only [storeCode, List.mem_cons] at hi
    rcases hi with rfl | rfl | hi
    · refine ⟨?_, fun _ _ he => by cases he⟩
      rintro d b k he
      cases he
      exact localName_out
    · refine ⟨(fun _ _ _ he => by cases he), ?_⟩
      rintro v p he
      cases he
      exact localName_reg c
    · exact storeCode_pointers ncols value rest (c + 1) i hi

/-- **C50, matrices.** Likewise for a matrix. -/
theorem C50_text_matrix (symargs : List Expr) (m : Mat) (hm : MatHistory m) (fn : IRFunction)
    (h : toLlvmMatrix symargs m = .ok fn) (hs : SSA fn) :
    parseModule fn.text =
      some ([("llvm.pow.f64", 2), ("llvm.sin.f64", 1), ("llvm.cos.f64", 1)], fn) := by
  obtain ⟨names, us, hn, hus, hck, hfn⟩ := toLlvmMatrix_inv (history_wf hm) h
  have := writable_of_ssa hs (by
    intro i hi
    rw [hfn] at hi
    rcases List.mem_append.1 hi with hi | hi
    · rcases List.mem_append.1 hi with hi | hi
      · obtain ⟨t, _, rfl⟩ := List.mem_map.1 hi
        exact ⟨fun d b k he => absurd he (nodes_no_memory.1 d b k),
          fun v p he => absurd he (nodes_no_memory.2 v p)⟩
      · exact storeCode_pointers _ _ _ _ i hi
    · obtain rfl := List.mem_singleton.1 hi
      exact ⟨(fun _ _ _ he => by cases he), (fun _ _ he => by cases he)⟩)
  exact parseModule_text fn this.1 this.2

theorem runsModule_iff {fn : IRFunction} (hs : SSA fn)
    (hp : parseModule fn.text =
      some ([("llvm.pow.f64", 2), ("llvm.sin.f64", 1), ("llvm.cos.f64", 1)], fn))
    {F : Type} (A : IRArith F) (vs mem : List F) (r : Option F × List F) :
    RunsModule A fn.text vs mem r ↔ IRFunction.run A fn vs mem = some r := by
  constructor
  · rintro ⟨ds, fn', h1, _, _, h2⟩
    rw [hp] at h1
    cases h1
    exact h2
  · intro h
    exact ⟨_, fn, hp, hs, declared_callees hs, h⟩

/-- **C50, from text to value.** Given legal parameter names and an expression of the supported
kind, the text is generated, and compiling and calling it with the parameter values `vs` returns
the value of the expression and nothing else. -/
theorem C50_text_computes (symargs : List Expr) (e : Expr) (hg : GoodParams symargs)
    (hs : Supported symargs e) :
    ∃ fn, toLlvm symargs e = .ok fn ∧
      ∀ {F : Type} (A : IRArith F) (vs mem : List F), symargs.length = vs.length →
        ∃ v, Evaluates (irMeaning A symargs vs) e v ∧
          ∀ r, RunsModule A fn.text vs mem r ↔ r = (some v, mem) := by
  obtain ⟨fn, h, hssa⟩ := C35_generated symargs e hg hs
  refine ⟨fn, h, ?_⟩
  intro F A vs mem hlen
  obtain ⟨v, hv, hrun⟩ := C35_computes_expression symargs e fn hs h hssa A vs mem hlen
  refine ⟨v, hv, fun r => ?_⟩
  rw [runsModule_iff hssa (C50_text symargs e fn h hssa), hrun]
  exact ⟨fun h => (Option.some.inj h).symm, fun h => by rw [h]⟩

/-- **C50, from text to array.** Likewise for a matrix of at most 2³¹ entries: compiling the text
and calling it with an array of zeros fills the array with the values of the entries. -/
theorem C50_text_fills (symargs : List Expr) (m : Mat) (hm : MatHistory m)
    (hg : GoodParams symargs ["_out"]) (hs : MatSupported symargs m)
    (hsize : m.nrows * m.ncols ≤ 2 ^ 31) (hz : zero ∉ symargs) :
    ∃ fn, toLlvmMatrix symargs m = .ok fn ∧
      ∀ {F : Type} (A : IRArith F) (vs : List F), symargs.length = vs.length →
        ∃ mem', (∀ r, RunsModule A fn.text vs (List.replicate (m.nrows * m.ncols) (A.const 0)) r ↔
            r = (none, mem')) ∧ mem'.length = m.nrows * m.ncols ∧
          ∀ i j : Nat, i < m.nrows → j < m.ncols → ∃ e v, m.getItem (.pair i j) = .ok e ∧
            Evaluates (irMeaning A symargs vs) e v ∧ mem'[i * m.ncols + j]? = some v := by
  obtain ⟨fn, h, hssa⟩ := C36_generated symargs m hm hg hs
  refine ⟨fn, h, ?_⟩
  intro F A vs hlen
  obtain ⟨mem', hrun, hl, hv⟩ := C36_call symargs m hm fn hs h hssa hsize hz A vs hlen
  refine ⟨mem', fun r => ?_, hl, hv⟩
  rw [runsModule_iff hssa (C50_text_matrix symargs m hm fn h hssa), hrun]
  exact ⟨fun h => (Option.some.inj h).symm, fun h => by rw [h]⟩

/-- The hypotheses hold (see the examples of C35 and C36); the text for
`lambdify([x, y], sin(x*y) + 2)` is this. -/
example : ∃ fn, toLlvm [x, y] (add (sin (mul x y)) (integer 2)) = .ok fn ∧ SSA fn ∧
    fn.text = llvmHeader ++
      "define double @\"jit_func1\"(double %\"x\", double %\"y\")\n{\n%\".0\" = fmul double %\"x\", %\"y\"\n%\".1\" = call double @llvm.sin.f64(double %\".0\")\n%\".2\" = fadd double %\".1\", 0x4000000000000000\nret double %\".2\"\n}" := by
  have hgen : toLlvm [x, y] (add (sin (mul x y)) (integer 2)) = .ok ⟨false, ["%\"x\"", "%\"y\""],
      [.arith "%\".0\"" "fmul" ["%\"x\"", "%\"y\""], .call "%\".1\"" "sin" ["%\".0\""],
       .arith "%\".2\"" "fadd" ["%\".1\"", "0x4000000000000000"], .ret "%\".2\""]⟩ := by
    decide +kernel
  refine ⟨_, hgen, (C34_ssa _ _ _ hgen).2 ⟨["x", "y"], rfl, by decide, ?_⟩, by decide +kernel⟩
  intro s hs
  have key : ∀ t : String, t.toList.head? ≠ some '.' → ∀ n : Nat, t ≠ "." ++ toString n := by
    intro t ht n he
    rw [he] at ht
    simp [String.toList_append] at ht
  simp only [List.mem_cons, List.not_mem_nil, or_false] at hs
  rcases hs with rfl | rfl
  · exact ⟨⟨by decide, by decide⟩, fun n _ => key _ (by decide) n⟩
  · exact ⟨⟨by decide, by decide⟩, fun n _ => key _ (by decide) n⟩

/-- **C50, names are not escaped.** A parameter whose name contains quotes changes the text: for
one parameter named `x", double %"y`, and the constant expression 1, the text is that of a valid
function of *two* parameters. -/
theorem C50_names_not_escaped_false :
    ∃ fn ds fn', toLlvm [symbol "x\", double %\"y"] (integer 1) = .ok fn ∧ fn.params.length = 1 ∧
      parseModule fn.text = some (ds, fn') ∧ SSA fn' ∧ fn'.params = ["%\"x\"", "%\"y\""] := by
  have hp : toLlvm [x, y] (integer 1) = .ok ⟨false, ["%\"x\"", "%\"y\""],
      [.ret "0x3ff0000000000000"]⟩ := by decide +kernel
  refine ⟨⟨false, ["%\"x\", double %\"y\""], [.ret "0x3ff0000000000000"]⟩,
    [("llvm.pow.f64", 2), ("llvm.sin.f64", 1), ("llvm.cos.f64", 1)],
    ⟨false, ["%\"x\"", "%\"y\""], [.ret "0x3ff0000000000000"]⟩, by decide +kernel, rfl, ?_,
    (C34_ssa _ _ _ hp).2 ⟨["x", "y"], rfl, by decide, ?_⟩, rfl⟩
  · decide +kernel
  · intro s hs
    refine ⟨?_, fun n hn => ?_⟩
    · simp only [List.mem_cons, List.not_mem_nil, or_false] at hs
      rcases hs with rfl | rfl
      · exact ⟨by decide, by decide⟩
      · exact ⟨by decide, by decide⟩
    · simp at hn

end Verif.Props
