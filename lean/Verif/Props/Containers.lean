import Verif.Lemmas.ContainersHistory
import Verif.Model.Functions

/-!
# C65: calls leave the caller's lists, sets and dicts alone, and keep no hold on them
-/

namespace Verif.Props
open Verif Mem Spec Expr

/-- The sample heap: outside code has a list `[x]`, a set `{sin(x)}` and a dict `{x: 2, y: 5}`. -/
private def userHeap : Mem.Heap Val Int :=
  ⟨[.list [.tree (symbol "x")], .set [Expr.sin (symbol "x")],
    .vals (Dict.ofPairs [(symbol "x", 2), (symbol "y", 5)])], [0, 1, 2]⟩

/-- `cos(sin(x))` -/
private def cosSin : Expr := Expr.cos (Expr.sin (symbol "x"))

variable {V T : Type} [DecidableEq V]

/-- **C65, `topological_sort`.** Whatever containers there are, a call returns (it never raises) a
list that did not exist, with the contents of the function on values, and every container that existed
(`exclude` among them) is as before; the call lets go of `exclude`: outside code can reach nothing
that it could not reach. -/
theorem C65_topological_sort (h : Mem.Heap V T) (heads : Bool) (exclude : Option Nat) (l : List (Tree V))
    (hl : Excludes h exclude l) (e : Tree V) :
    ∃ r h', Mem.topologicalSort heads exclude e h = (.ok r, h') ∧ OnlyNew h h' ∧ h.objs.length ≤ r ∧
      IsTrees h' r (Verif.topologicalSort heads l e) := by
  rcases post_run (topologicalSort_post heads exclude l hl e) with ⟨r, hr, hq⟩ | ⟨_, _, hf⟩
  · exact ⟨r, _, Prod.ext hr rfl, hq⟩
  · exact hf.elim

example : Excludes userHeap (some 1) [Expr.sin (symbol "x")] ∧
    Verif.topologicalSort false [Expr.sin (symbol "x")] cosSin = [cosSin] ∧
    (Mem.topologicalSort false (some 1) cosSin userHeap).1 = .ok 4 ∧
    (Mem.topologicalSort false none cosSin userHeap).2.objs[4]? =
      some (.list [.tree (symbol "x"), .tree (Expr.sin (symbol "x")), .tree cosSin]) := by
  refine ⟨Or.inr rfl, ?_, ?_, ?_⟩ <;> decide +kernel

/-- **C65, `topological_split`.** -/
theorem C65_topological_split (h : Mem.Heap V T) (exclude : Option Nat) (l : List (Tree V))
    (hl : Excludes h exclude l) (e : Tree V) :
    ∃ atoms heads nodes h', Mem.topologicalSplit exclude e h = (.ok (atoms, heads, nodes), h') ∧
      OnlyNew h h' ∧ NewAndDistinct h [atoms, heads, nodes] ∧
      IsTrees h' atoms (Verif.topologicalSplit l e).atoms ∧
      IsSet h' heads (Verif.topologicalSplit l e).heads ∧
      IsTrees h' nodes (Verif.topologicalSplit l e).nodes := by
  rcases post_run (topologicalSplit_post exclude l hl e) with ⟨⟨a, b, c⟩, hr, hq⟩ | ⟨_, _, hf⟩
  · exact ⟨a, b, c, _, Prod.ext hr rfl, hq⟩
  · exact hf.elim

/-- Here `exclude` is the list `[x]`. -/
example : Excludes userHeap (some 0) [symbol "x"] ∧
    (Verif.topologicalSplit [symbol "x"] cosSin).nodes = [Expr.sin (symbol "x"), cosSin] := by
  refine ⟨Or.inl rfl, ?_⟩
  decide +kernel

/-- **C65, `forward_graph`.** All containers of the graph, down to the lists of indices, are new and
different from each other: whatever is done to one leaves the others and all other graphs alone. -/
theorem C65_forward_graph (h : Mem.Heap V T) (e : Tree V) :
    ∃ g h' G, Mem.forwardGraph e h = (.ok g, h') ∧ Verif.forwardGraph e = .ok G ∧ OnlyNew h h' ∧
      IsGraph h' g G ∧ NewAndDistinct h (graphRefs h' g) := by
  rcases post_run (forwardGraph_post (h := h) e) with ⟨g, hr, G, h1, h2, h3, h4⟩ | ⟨_, _, hf⟩
  · exact ⟨g, _, G, Prod.ext hr rfl, h1, h2, h3, h4⟩
  · exact hf.elim

/-- The graph of `cos(sin(x))` has 5 containers. -/
example : (Mem.forwardGraph cosSin userHeap).1 = .ok ⟨10, 11, 13⟩ ∧
    graphRefs (Mem.forwardGraph cosSin userHeap).2 ⟨10, 11, 13⟩ = [10, 11, 13, 15, 16] := by
  refine ⟨?_, ?_⟩ <;> decide +kernel

/-- **C65, `SubsFunc`.** Making a substitution function changes nothing and keeps no hold on the
list of parameters. -/
theorem C65_subsfunc (h : Mem.Heap V T) (e : Tree V) (args : Nat) (ps : List (Tree V))
    (hps : IsTrees h args ps) :
    ∃ f h' F, Mem.Subs.new e args h = (.ok f, h') ∧ SubsFunc.new e ps = .ok F ∧ OnlyNew h h' ∧
      IsSubs h' f F ∧ NewAndDistinct h (subsRefs h' f) := by
  rcases post_run (subsNew_post e args ps hps) with ⟨f, hr, F, h1, h2, h3, h4⟩ | ⟨_, _, hf⟩
  · exact ⟨f, _, F, Prod.ext hr rfl, h1, h2, h3, h4⟩
  · exact hf.elim

/-- The function `λ x. cos(sin(x))` -/
private def cosSinSubs : Mem.Subs := ⟨1, 18, 20⟩

example : IsTrees userHeap 0 [symbol "x"] ∧
    (Mem.Subs.new cosSin 0 userHeap).1 = .ok cosSinSubs ∧
    subsRefs (Mem.Subs.new cosSin 0 userHeap).2 cosSinSubs = [18, 20, 21, 22] := by
  refine ⟨rfl, ?_, ?_⟩ <;> decide +kernel

omit [DecidableEq V] in
/-- **C65, calling a `SubsFunc`.** A call gives the result (or raises the exception) of the function on
values and changes nothing, so that it gives the same result again. -/
theorem C65_subs_call (h : Mem.Heap V T) (f : Mem.Subs) (F : SubsFunc V) (hf : IsSubs h f F)
    (args : List (Tree V)) :
    ∃ h', f.call args h = (F.call args, h') ∧ OnlyNew h h' ∧ IsSubs h' f F := by
  rcases post_run (subsCall_post f F hf args) with ⟨t, hr, h1, h2⟩ | ⟨e, hr, h1, h2⟩
  · exact ⟨_, Prod.ext (by rw [hr, h1]) rfl, h2, hf.new h2⟩
  · exact ⟨_, Prod.ext (by rw [hr, h1]) rfl, h2, hf.new h2⟩

example : ∃ F, SubsFunc.new cosSin [symbol "x"] = .ok F ∧
    IsSubs (Mem.Subs.new cosSin 0 userHeap).2 cosSinSubs F ∧
    F.call [symbol "y"] = .ok (Expr.cos (Expr.sin (symbol "y"))) := by
  obtain ⟨f, h', F, h1, h2, -, h3, -⟩ := C65_subsfunc userHeap cosSin 0 [symbol "x"] rfl
  have hf : f = cosSinSubs := by
    have : (Mem.Subs.new cosSin 0 userHeap).1 = .ok cosSinSubs := by decide +kernel
    rw [h1] at this
    exact Except.ok.inj this
  subst hf
  refine ⟨F, h2, ?_, ?_⟩
  · rw [h1]; exact h3
  · have : ((SubsFunc.new cosSin [symbol "x"]).bind fun F => F.call [symbol "y"]) =
      .ok (Expr.cos (Expr.sin (symbol "y"))) := by decide +kernel
    rw [h2] at this
    exact this

/-- **C65, differentiation.** Differentiating gives the result (or exception) of the function on
values and changes nothing, neither the rules nor any other container. -/
theorem C65_diff (h : Mem.Heap Val T) (p : Mem.Props Val) (P : DiffProps Val) (hp : IsProps h p P)
    (e sym : Expr) (n : Int) :
    ∃ h', p.call e sym n h = (SymDifferentiator.call P e sym n, h') ∧ OnlyNew h h' ∧ IsProps h' p P := by
  rcases post_run (iterate_post p P sym n.toNat h e hp) with ⟨t, hr, h1, h2⟩ | ⟨er, hr, h1, h2⟩
  · exact ⟨_, Prod.ext (by exact hr.trans h2.symm) rfl, h1, hp.new h1⟩
  · exact ⟨_, Prod.ext (by exact hr.trans h2.symm) rfl, h1, hp.new h1⟩

/-- **C65, making rules.** `add_distributive` changes the set of the differentiator and
`d[expr, sym] = dexpr` the dict of the differentiator, and nothing else; a rejected assignment
changes nothing. -/
theorem C65_rules (h : Mem.Heap Val T) (p : Mem.Props Val) (P : DiffProps Val) (hp : IsProps h p P) :
    (∀ head, ∃ h', p.addDistributive head h = (.ok (), h') ∧ OnlyChanges p.distributive h h' ∧
      IsProps h' p (P.addDistributive head)) ∧
    ∀ expr sym dexpr, ∃ h',
      match SymDifferentiator.setItem P expr sym dexpr with
      | .ok P' => p.setItem expr sym dexpr h = (.ok (), h') ∧ OnlyChanges p.diffRules h h' ∧
          IsProps h' p P'
      | .error err => p.setItem expr sym dexpr h = (.error err, h') ∧ OnlyNew h h' ∧ IsProps h' p P := by
  have hp' := hp
  obtain ⟨e1, e2, e3, e4, hset, d, hrules, hf⟩ := hp
  have hne : p.diffRules ≠ p.distributive := ne_of_get hrules hset (by simp)
  have hsub : ∀ {h1 : Mem.Heap Val T} {a : Nat} {o o' : Obj Val T} {f : Mem.Subs} {F : SubsFunc Val},
      h1.objs[a]? = some o → (∀ l, o ≠ .list l) → IsSubs h1 f F →
      IsSubs { h1 with objs := h1.objs.set a o' } f F := by
    intro h1 a o o' f F ha hl hs
    refine hs.mono fun b ob hb hob => get_set_other hob ?_
    rintro rfl
    obtain ⟨l, hl'⟩ := subsRefs_list hs hb
    rw [ha] at hl'
    exact hl l (Option.some.inj hl')
  constructor
  · intro head
    have hpost : Post (p.addDistributive head) h (fun _ h' => h' = { h with
        objs := h.objs.set p.distributive (.set (head :: P.distributive)) }) noErr := by
      unfold Props.addDistributive
      exact post_addSet hset rfl
    rcases post_run hpost with ⟨_, hr, h1⟩ | ⟨_, _, hf⟩
    · refine ⟨_, Prod.ext hr h1, ?_, ?_⟩
      · refine ⟨by simp, rfl, fun a _ hne => ?_⟩
        simp only [List.getElem?_set_ne (Ne.symm hne)]
      · refine ⟨e1, e2, e3, e4, get_set_self hset, d, get_set_other hrules hne.symm, ?_⟩
        exact forall₂_imp_mem hf fun a b _ hab => ⟨hab.1, hsub hset (by simp) hab.2⟩
    · exact hf.elim
  · intro expr sym dexpr
    rcases post_run (setItem_post p P d hrules expr sym dexpr) with
      ⟨_, hr, head, index, f, F, h1, hok, hn, hsf, hfr, hh'⟩ | ⟨e, hr, herr, hn⟩
    · refine ⟨{ h1 with objs := h1.objs.set p.diffRules (.rules (d.set (head, index) f)) }, ?_⟩
      rw [hok]
      refine ⟨Prod.ext hr hh', ?_, ?_⟩
      · refine ⟨by simpa using hn.le, hn.2, fun a ha hne => ?_⟩
        simp only [List.getElem?_set_ne (Ne.symm hne)]
        obtain ⟨t, ht⟩ := hn.1
        rw [← ht, List.getElem?_append_left ha]
      · refine ⟨e1, e2, e3, e4, get_set_other (hn.get hset) hne, _, get_set_self (hn.get hrules), ?_⟩
        refine rules_assign (forall₂_imp_mem hf fun a b _ hab => ⟨hab.1, ?_⟩) _ ?_
        · exact hsub (hn.get hrules) (by simp) (hab.2.new hn)
        · exact hsub (hn.get hrules) (by simp) hsf
    · refine ⟨(p.setItem expr sym dexpr h).2, ?_⟩
      rw [herr]
      exact ⟨Prod.ext hr rfl, hn, hp'.new hn⟩

/-- The result, the containers and what they stand for after a rule `d[sin(a), a] = cos(a)`, made on a
new differentiator. -/
example : let c := (Mem.Props.new addH mulH zero one : M Val Int (Mem.Props Val))
    let p : Mem.Props Val := ⟨zero, one, addH, mulH, 3, 4⟩
    (c userHeap).2.objs[3]? = some (.set []) ∧ (c userHeap).2.objs[4]? = some (.rules Dict.empty) ∧
    IsProps (c userHeap).2 p (SymDifferentiator.new addH mulH zero one) ∧
    ∃ P', SymDifferentiator.setItem (SymDifferentiator.new addH mulH zero one) (Expr.sin (wild "a"))
      (wild "a") (Expr.cos (wild "a")) = .ok P' ∧
    SymDifferentiator.call P' (Expr.sin (symbol "x")) (symbol "x") = .ok (Expr.cos (symbol "x")) := by
  refine ⟨rfl, rfl, ⟨rfl, rfl, rfl, rfl, rfl, Dict.empty, rfl, .nil⟩, ?_⟩
  have : ((SymDifferentiator.setItem (SymDifferentiator.new addH mulH zero one) (Expr.sin (wild "a"))
      (wild "a") (Expr.cos (wild "a"))).bind fun P' =>
      SymDifferentiator.call P' (Expr.sin (symbol "x")) (symbol "x")) = .ok (Expr.cos (symbol "x")) := by
    decide +kernel
  cases hs : SymDifferentiator.setItem (SymDifferentiator.new addH mulH zero one) (Expr.sin (wild "a"))
      (wild "a") (Expr.cos (wild "a")) with
  | error e => rw [hs] at this; cases this
  | ok P' => rw [hs] at this; exact ⟨P', rfl, this⟩

/-- **C65, evaluation.** The functions of an evaluator may do anything to the containers they can reach,
including the list of arguments that they are called with, now or in a later call, as long as they
leave those in `keep` alone, the dict of values among them.  The evaluation then gives the value (or
exception) that the functions on values give, and leaves those in `keep` alone, too; containers
that outside code could not reach are as before. -/
theorem C65_evaluate [HasNone T] (h : Mem.Heap V T) (hs : Sound h) (keep : Nat → Prop)
    (hkeep : ∀ a, keep a → a < h.objs.length) (ev : Mem.Evaluator V T) (E : Verif.Evaluator PyM V T)
    (hi : Implements keep ev E) (values : Nat) (d : Dict (Tree V) T)
    (hv : h.objs[values]? = some (.vals d)) (hk : keep values) (e : Tree V) :
    ∃ h', ev.evalForward e values h = (E.call e (some d), h') ∧ Outside h h' ∧
      ∀ a, keep a → h'.objs[a]? = h.objs[a]? := by
  rcases post_run (evalForward_post hi hs hkeep hv (Or.inl hk) e) with ⟨v, hr, h1, h2⟩ | ⟨v, hr, h1, h2⟩
  · exact ⟨_, Prod.ext (by exact hr.trans h1.symm) rfl, h2⟩
  · exact ⟨_, Prod.ext (by exact hr.trans h1.symm) rfl, h2⟩

/-- Empty all lists of outside code, except for address 2. -/
private def clearLists (h : Mem.Heap Val Int) : Mem.Heap Val Int :=
  { h with objs := h.objs.mapIdx fun a o =>
      if a ∈ h.user ∧ a ≠ 2 then match o with | .list _ => .list [] | o => o else o }

/-- An addition rule that empties the list it is called with, as well as every list of outside code. -/
private def rudeAdd (r : Nat) : M Val Int Int := do
  let vs ← M.readValues r
  let _ ← (fun h => (.ok (), clearLists h) : M Val Int Unit)
  return vs.sum

private def rude : Mem.Evaluator Val Int where
  atoms := Dict.empty
  operations := Dict.ofPairs [(addH, .seq rudeAdd)]
  genericOperationFunc := fun _ _ => M.lift (.error .noEvaluationRule)
  genericAtomFunc := fun _ => M.lift (.error .noEvaluationRule)

private def polite : Verif.Evaluator PyM Val Int where
  atoms := Dict.empty
  operations := Dict.ofPairs [(addH, .seq fun vs => .ok vs.sum)]
  genericOperationFunc := fun _ _ => .error .noEvaluationRule
  genericAtomFunc := fun _ => .error .noEvaluationRule

private theorem behaves_raise (keep : Nat → Prop) (h : Mem.Heap Val Int) (e : PyErr) :
    Behaves keep (M.lift (.error e) : M Val Int Int) h (.error e) :=
  ⟨rfl, Outside.refl h, fun _ _ => rfl⟩

private theorem rudeAdd_behaves (h : Mem.Heap Val Int) (r : Nat) (vs : List Int) (hr : IsVals h r vs) :
    Behaves (fun a => a = 2) (rudeAdd r) h (.ok vs.sum) := by
  have hpost : Post (rudeAdd r) h (fun v h' => v = vs.sum ∧ h' = clearLists h) noErr := by
    unfold rudeAdd
    exact post_bind (post_readValues hr ⟨rfl, rfl⟩)
  have hc : ∀ a, a ∉ h.user ∨ a = 2 → (clearLists h).objs[a]? = h.objs[a]? := by
    intro a ha
    unfold clearLists
    simp only [List.getElem?_mapIdx]
    cases h.objs[a]? with
    | none => rfl
    | some o =>
      rw [Option.map_some, if_neg]
      rintro ⟨h1, h2⟩
      exact ha.elim (fun h => h h1) h2
  rcases post_run hpost with ⟨v, hv, hq, hh⟩ | ⟨_, _, hf⟩
  · refine ⟨by rw [hv, hq], ?_, ?_⟩
    · rw [hh]
      refine ⟨by simp [clearLists], fun a _ ha => hc a (Or.inl ha), fun a ha => Or.inl ha⟩
    · intro a ha
      rw [hh]
      exact hc a (Or.inr ha)
  · exact hf.elim

private theorem rude_implements : Implements (fun a => a = 2) rude polite := by
  have e1 : ∀ head, rude.operations.get? head = if addH = head then some (.seq rudeAdd) else none :=
    fun _ => rfl
  have e2 : ∀ head, polite.operations.get? head =
      if addH = head then some (.seq fun vs => .ok vs.sum) else none := fun _ => rfl
  refine ⟨fun ty => ⟨fun f hf => (by cases hf), fun _ => rfl⟩, ?_, ?_, ?_, ?_, ?_⟩
  · intro head f hf
    rw [e1] at hf
    split at hf <;> cases hf
  · intro head f hf
    rw [e1] at hf
    split at hf
    · rename_i heq
      cases hf
      refine ⟨fun vs => .ok vs.sum, by rw [e2, if_pos heq], ?_⟩
      intro vs h r hr _ _
      exact rudeAdd_behaves h r vs hr
    · cases hf
  · intro head hf
    rw [e1] at hf
    split at hf
    · cases hf
    · rename_i hne
      rw [e2, if_neg hne]
  · exact fun t h => behaves_raise _ h _
  · exact fun head vs h r _ _ _ => behaves_raise _ h _

/-- `2 + 5`, and afterwards the list `[x]` of outside code is empty. -/
example : Sound userHeap ∧ Implements (fun a => a = 2) rude polite ∧
    (rude.evalForward (Expr.add (symbol "x") (symbol "y")) 2 userHeap).1 = .ok 7 ∧
    (rude.evalForward (Expr.add (symbol "x") (symbol "y")) 2 userHeap).2.objs[0]? = some (.list []) := by
  refine ⟨?_, rude_implements, ?_, ?_⟩
  · unfold Sound; decide
  · decide +kernel
  · decide +kernel

/-- **C65, evaluation of `Sym`s.** A `SymEvaluator` copies the dict of values first: the value does
not depend on what the functions do to the dict while the evaluation runs. -/
theorem C65_sym_evaluate [HasNone T] (h : Mem.Heap Val T) (hs : Sound h) (keep : Nat → Prop)
    (hkeep : ∀ a, keep a → a < h.objs.length) (ev : Mem.Evaluator Val T)
    (E : Verif.Evaluator PyM Val T) (hi : Implements keep ev E) (e : Expr) :
    (∃ h', ev.symCall e none h = (symEvalCall E e none, h') ∧ Outside h h' ∧
      ∀ a, keep a → h'.objs[a]? = h.objs[a]?) ∧
    ∀ values d, h.objs[values]? = some (.vals d) →
      ∃ h', ev.symCall e (some values) h = (symEvalCall E e (some d), h') ∧ Outside h h' ∧
        ∀ a, keep a → h'.objs[a]? = h.objs[a]? := by
  constructor
  · rcases post_run (symCall_post hi hs hkeep none none trivial e) with ⟨v, hr, h1, h2⟩ | ⟨v, hr, h1, h2⟩
    · exact ⟨_, Prod.ext (by exact hr.trans h1.symm) rfl, h2⟩
    · exact ⟨_, Prod.ext (by exact hr.trans h1.symm) rfl, h2⟩
  · intro values d hd
    rcases post_run (symCall_post hi hs hkeep (some values) (some d) hd e) with
      ⟨v, hr, h1, h2⟩ | ⟨v, hr, h1, h2⟩
    · exact ⟨_, Prod.ext (by exact hr.trans h1.symm) rfl, h2⟩
    · exact ⟨_, Prod.ext (by exact hr.trans h1.symm) rfl, h2⟩

/-- The rule for atoms is 0 and empties the dict 2 if it can. -/
private def forgetful : Mem.Evaluator Val Int where
  atoms := Dict.empty
  operations := Dict.ofPairs [(addH, .star fun vs => M.lift (.ok vs.sum))]
  genericOperationFunc := fun _ _ => M.lift (.error .noEvaluationRule)
  genericAtomFunc := fun _ h => (.ok 0,
    if 2 ∈ h.user then { h with objs := h.objs.set 2 (.vals Dict.empty) } else h)

private def remembering : Verif.Evaluator PyM Val Int where
  atoms := Dict.empty
  operations := Dict.ofPairs [(addH, .star fun vs => .ok vs.sum)]
  genericOperationFunc := fun _ _ => .error .noEvaluationRule
  genericAtomFunc := fun _ => .ok 0

private theorem forgetful_implements : Implements (fun _ => False) forgetful remembering := by
  have e1 : ∀ head, forgetful.operations.get? head =
      if addH = head then some (.star fun vs => M.lift (.ok vs.sum)) else none := fun _ => rfl
  have e2 : ∀ head, remembering.operations.get? head =
      if addH = head then some (.star fun vs => .ok vs.sum) else none := fun _ => rfl
  refine ⟨fun ty => ⟨fun f hf => (by cases hf), fun _ => rfl⟩, ?_, ?_, ?_, ?_, ?_⟩
  · intro head f hf
    rw [e1] at hf
    split at hf
    · rename_i heq
      cases hf
      refine ⟨fun vs => .ok vs.sum, by rw [e2, if_pos heq], ?_⟩
      exact fun vs h => ⟨rfl, Outside.refl h, fun _ hk => hk.elim⟩
    · cases hf
  · intro head f hf
    rw [e1] at hf
    split at hf <;> cases hf
  · intro head hf
    rw [e1] at hf
    split at hf
    · cases hf
    · rename_i hne
      rw [e2, if_neg hne]
  · intro t h
    refine ⟨rfl, ?_, fun _ hk => hk.elim⟩
    show Outside h (if 2 ∈ h.user then { h with objs := h.objs.set 2 (.vals Dict.empty) } else h)
    split
    · rename_i hu
      refine ⟨by simp, ?_, fun a ha => Or.inl ha⟩
      intro a _ ha
      have : (2 : Nat) ≠ a := by rintro rfl; exact ha hu
      simp only [List.getElem?_set_ne this]
    · exact Outside.refl h
  · exact fun head vs h r _ _ _ => behaves_raise _ h _

/-- `z + x` at `{x: 2, y: 5}`, where the rule for the atom `z` empties the dict: a `SymEvaluator` gives 2;
an `Evaluator` works on the dict itself and gives 0. -/
example : Implements (fun _ => False) forgetful remembering ∧
    (forgetful.symCall (Expr.add (symbol "z") (symbol "x")) (some 2) userHeap).1 = .ok 2 ∧
    (forgetful.evalForward (Expr.add (symbol "z") (symbol "x")) 2 userHeap).1 = .ok 0 := by
  refine ⟨forgetful_implements, ?_, ?_⟩ <;> decide +kernel

/-- **C65, any program.** In every state that a program can reach, after any history of calls and
whatever the program has done to its own containers and to all those it got from calls: a
substitution function gives the results it gave when it was made, and a differentiator those of the
rules that were assigned to it. -/
theorem C65_history [HasNone T] (s : Session T) (t : Meanings) (hr : Reaches s t) :
    (s.subs.length = t.subs.length ∧ ∀ (i : Nat) f F, s.subs[i]? = some f → t.subs[i]? = some F →
      ∀ args, (f.call args s.heap).1 = F.call args) ∧
    (s.diffs.length = t.diffs.length ∧ ∀ (i : Nat) p P, s.diffs[i]? = some p → t.diffs[i]? = some P →
      ∀ e sym n, (p.call e sym n s.heap).1 = SymDifferentiator.call P e sym n) := by
  have hi := reaches_inv hr
  refine ⟨⟨hi.subs.length_eq, ?_⟩, hi.diffs.length_eq, ?_⟩
  · intro i f F hf hF args
    obtain ⟨F', hF', hp⟩ := forall₂_get hi.subs hf
    rw [hF] at hF'
    cases hF'
    obtain ⟨h', hr, -⟩ := C65_subs_call s.heap f F hp.1 args
    rw [hr]
  · intro i p P hp hP e sym n
    obtain ⟨h', hr, -⟩ := C65_diff s.heap p P (hi.diff_get hp hP).1 e sym n
    rw [hr]

/-- A program makes the function `λ x. cos(sin(x))` with its list `[x]` and a differentiator with the
rule for `sin`, and then empties its list. -/
example : ∃ s t, Reaches (T := Int) s t ∧ s.heap.objs[0]? = some (.list []) ∧
    (∃ f F, s.subs = [f] ∧ t.subs = [F] ∧ F.call [symbol "y"] = .ok (Expr.cos (Expr.sin (symbol "y")))) ∧
    (∃ p P, s.diffs = [p] ∧ t.diffs = [P] ∧
      SymDifferentiator.call P (Expr.sin (symbol "x")) (symbol "x") = .ok (Expr.cos (symbol "x"))) := by
  obtain ⟨f, h1, F, e1, e2, n1, -⟩ := C65_subsfunc userHeap cosSin 0 [symbol "x"] rfl
  have r1 := Reaches.newSubs cosSin 0 [symbol "x"] f h1 F (.start userHeap (by unfold Sound; decide)) rfl e1 e2
  have hF : F.call [symbol "y"] = .ok (Expr.cos (Expr.sin (symbol "y"))) := by
    have : ((SubsFunc.new cosSin [symbol "x"]).bind fun F => F.call [symbol "y"]) =
      .ok (Expr.cos (Expr.sin (symbol "y"))) := by decide +kernel
    rw [e2] at this
    exact this
  have hlen : 3 ≤ h1.objs.length := n1.le
  have r2 := Reaches.outside { h1 with objs := h1.objs.set 0 (.list []) } r1 (by
    refine ⟨by simp, ?_, fun a ha => Or.inl ha⟩
    intro a _ ha
    have : (0 : Nat) ≠ a := by
      rintro rfl
      apply ha
      show 0 ∈ h1.user
      rw [n1.2]
      decide
    simp only [List.getElem?_set_ne this])
  have r3 := Reaches.newDiff addH mulH zero one ⟨zero, one, addH, mulH, _, _⟩ _ r2 rfl
  have hs : ((SymDifferentiator.setItem (SymDifferentiator.new addH mulH zero one) (Expr.sin (wild "a"))
      (wild "a") (Expr.cos (wild "a"))).bind fun P' =>
      SymDifferentiator.call P' (Expr.sin (symbol "x")) (symbol "x")) = .ok (Expr.cos (symbol "x")) := by
    decide +kernel
  cases hset : SymDifferentiator.setItem (SymDifferentiator.new addH mulH zero one) (Expr.sin (wild "a"))
      (wild "a") (Expr.cos (wild "a")) with
  | error e => rw [hset] at hs; cases hs
  | ok P' =>
    rw [hset] at hs
    have r4 := Reaches.assign 0 _ _ _ _ _ P' r3 rfl rfl hset
    refine ⟨_, _, r4, ?_, ⟨f, F, rfl, rfl, hF⟩, _, P', rfl, rfl, hs⟩
    obtain ⟨h', hh⟩ := (C65_rules _ _ _ ((reaches_inv r3).diff_get (i := 0) rfl rfl).1).2
      (Expr.sin (wild "a")) (wild "a") (Expr.cos (wild "a"))
    have hset' : SymDifferentiator.setItem (SymDifferentiator.new addH mulH zero one)
      (Expr.sin (wild "a")) (wild "a") (Expr.cos (wild "a")) = .ok P' := hset
    rw [hset'] at hh
    obtain ⟨hrun, hch, -⟩ := hh
    show (Mem.Props.setItem _ _ _ _ _).2.objs[0]? = _
    rw [hrun]
    rw [hch.2.2 0 (by simp) (by simp)]
    have h0 : 0 < h1.objs.length := by omega
    simp [h0]

end Verif.Props
