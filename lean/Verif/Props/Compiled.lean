import Verif.Props.Compile
import Verif.Props.Substitution

/-!
# C60: compiled functions and the operations on expressions
-/

set_option exponentiation.threshold 2000

namespace Verif.Props
open Spec Expr

variable {F : Type} {P : Platform F} {A : IRArith F}

/-! ### Supported expressions -/

theorem supported_node {S : List Expr} {h : Expr} {args : List Expr} :
    Supported S (.node (h :: args)) ↔
      HeadSupported h args.length ∧ ∀ a ∈ args, Supported S a := by
  constructor
  · intro hs
    refine ⟨hs.heads h args (Reach.refl (by simp)), fun c hc => ⟨fun t ht htc => ?_, fun h' as ht => ?_⟩⟩
    · exact hs.atoms t (Reach.down (by simp) (by simpa [kids] using hc) ht) htc
    · exact hs.heads h' as (Reach.down (by simp) (by simpa [kids] using hc) ht)
  · rintro ⟨hh, ha⟩
    constructor
    · intro t ht htc
      cases ht with
      | refl => cases htc
      | down _ hc ht =>
        exact (ha _ (by simpa [kids] using hc)).atoms t ht htc
    · intro h' as ht
      generalize hu : (.node (h' :: as) : Expr) = u at ht
      cases ht with
      | refl => cases hu; exact hh
      | down _ hc ht =>
        subst hu
        exact (ha _ (by simpa [kids] using hc)).heads h' as ht

theorem supported_leaf {S : List Expr} {e : Expr} (he : e.children = []) :
    Supported S e ↔ AtomSupported S e := by
  have hk : kids false e = [] := by
    cases e with
    | atom a => rfl
    | node cs =>
      cases cs with
      | nil => rfl
      | cons c cs => cases he
  constructor
  · intro h; exact h.atoms e (Reach.refl (by simp)) he
  · intro h
    constructor
    · intro t ht _
      cases ht with
      | refl => exact h
      | down _ hc _ => rw [hk] at hc; cases hc
    · intro h' as ht
      generalize hu : (.node (h' :: as) : Expr) = u at ht
      cases ht with
      | refl => subst hu; cases he
      | down _ hc _ => rw [hk] at hc; cases hc

/-- An atom that is neither a function nor an integer. -/
def Replaceable (t : Expr) : Prop :=
  ∃ a : Atom Val, t = .atom a ∧ a.atomType ≠ Ty.function ∧ a.atomType ≠ Ty.integer

theorem replaceable_symbol (s : String) : Replaceable (symbol s) :=
  ⟨_, rfl, by simp [Ty.symbol, Ty.function], by simp [Ty.symbol, Ty.integer]⟩

theorem headSupported_subst {σ : Expr → Option Expr} (hσ : ∀ t, σ t ≠ none → Replaceable t)
    {h : Expr} {n : Nat} (hh : HeadSupported h n) : subst σ h = h := by
  have key : ∀ s, σ (function s) = none := by
    intro s
    cases hs : σ (function s) with
    | none => rfl
    | some u => obtain ⟨a, h1, h2, _⟩ := hσ _ (by rw [hs]; simp); cases h1; exact absurd rfl h2
  rcases hh with ⟨rfl | rfl, _⟩ | ⟨rfl, _⟩ | ⟨rfl | rfl, _⟩ <;> exact subst_none_atom (key _)

theorem subst_node_symbols {σ : Expr → Option Expr} (hσ : ∀ t, σ t ≠ none → Replaceable t)
    {S : List Expr} {h : Expr} {args : List Expr} (hs : Supported S (.node (h :: args))) :
    subst σ (.node (h :: args)) = .node (h :: args.map (subst σ)) := by
  rw [subst_none_node, List.map_cons, headSupported_subst hσ (supported_node.1 hs).1]
  cases hn : σ (.node (h :: args)) with
  | none => rfl
  | some u => obtain ⟨a, h1, _⟩ := hσ _ (by rw [hn]; simp); cases h1

/-- Replacing symbols by expressions that can be compiled. -/
theorem supported_subst {σ : Expr → Option Expr} (hσ : ∀ t, σ t ≠ none → Replaceable t)
    {S S' : List Expr} (hS : ∀ t ∈ S, Supported S' (subst σ t)) (e : Expr) :
    Supported S e → Supported S' (subst σ e) := by
  induction e using Tree.induction with
  | _ e ih =>
  intro hs
  by_cases hc : e.children = []
  · rcases (supported_leaf hc).1 hs with hm | ⟨n, rfl, hn⟩
    · exact hS e hm
    · have : σ (integer n) = none := by
        cases h : σ (integer n) with
        | none => rfl
        | some u => obtain ⟨a, h1, _, h2⟩ := hσ _ (by rw [h]; simp); cases h1; exact absurd rfl h2
      rw [show subst σ (integer n) = integer n from subst_none_atom this]
      exact (supported_leaf rfl).2 (Or.inr ⟨n, rfl, hn⟩)
  · cases e with
    | atom a => exact absurd rfl hc
    | node cs =>
      cases cs with
      | nil => exact absurd rfl hc
      | cons h args =>
        rw [subst_node_symbols hσ hs]
        obtain ⟨h1, h2⟩ := supported_node.1 hs
        refine supported_node.2 ⟨by rwa [List.length_map], ?_⟩
        intro a ha
        obtain ⟨b, hb, rfl⟩ := List.mem_map.1 ha
        exact ih b (by simp [Tree.children, hb]) (h2 b hb)

/-- The value of a substituted expression. -/
theorem evalTree_subst_leaves {T : Type} {σ : Expr → Option Expr}
    (hσ : ∀ t, σ t ≠ none → Replaceable t) {S : List Expr} (M M' : Meaning Val T)
    (hop : M.op = M'.op) (e : Expr)
    (hleaf : ∀ t, ArgSub e t → t.children = [] → evalTree M (subst σ t) = evalTree M' t) :
    Supported S e → evalTree M (subst σ e) = evalTree M' e := by
  induction e using Tree.induction with
  | _ e ih =>
  intro hs
  by_cases hc : e.children = []
  · exact hleaf e (Reach.refl (by simp)) hc
  · cases e with
    | atom a => exact absurd rfl hc
    | node cs =>
      cases cs with
      | nil => exact absurd rfl hc
      | cons h args =>
        rw [subst_node_symbols hσ hs]
        obtain ⟨h1, h2⟩ := supported_node.1 hs
        simp only [evalTree, evalTrees_eq, hop]
        have : ∀ as : List Expr, (∀ c ∈ as, c ∈ args) →
            (as.map (subst σ)).mapM (evalTree M) = as.mapM (evalTree M') := by
          intro as
          induction as with
          | nil => intro _; rfl
          | cons c cs ihc =>
            intro hsub
            have hcm := hsub c (by simp)
            rw [List.map_cons, List.mapM_cons, List.mapM_cons,
              ih c (by simp [Tree.children, hcm])
                (fun t ht htc => hleaf t (Reach.down (by simp) (by simpa [kids] using hcm) ht) htc)
                (h2 c hcm), ihc (fun d hd => hsub d (by simp [hd]))]
        rw [this args (fun _ h => h)]

/-! ### Calls of compiled functions -/

/-- A compiled function stays compiled. -/
theorem _root_.Verif.Spec.Compiled.later {f : Callable} {S : List Expr} {e : LambdifyArg} {s s' : Proc F}
    {W : Nat → Prop} (h : Compiled P f S e s) (hl : Later P W s s') : Compiled P f S e s' := by
  have mono : ∀ {W : Nat → Prop} {s t : Proc F}, Later P W s t → Later P (fun _ => True) s t := by
    intro W s t hl
    induction hl with
    | refl => exact .refl _
    | step _ ev ih =>
      refine .step ih ?_
      cases ev with
      | lambdify args e => exact .lambdify args e _
      | call f args _ hu => exact .call f args _ hu
      | write id cells _ hw => exact .write id cells _ trivial
      | free j _ hj => exact .free j _ hj
  obtain ⟨W0, s0, s1, h1, h2⟩ := h
  refine ⟨fun _ => True, s0, s1, h1, ?_⟩
  have h2 := mono h2
  have trans : ∀ {u : Proc F}, Later P (fun _ => True) s u → Later P (fun _ => True) s1 u := by
    intro u hu
    induction hu with
    | refl => exact h2
    | step _ ev ih => exact .step ih ev
  exact trans (mono hl)

/-- What a compiled function returns. -/
theorem compiled_call (hP : PlatformOK P A) {f : Callable} {symargs : List Expr} {e : Expr}
    {s : Proc F} (hg : GoodParams symargs) (hs : Supported symargs e)
    (hf : Compiled P f symargs (.expr e) s) (args : List (CallArg F)) (vs : List F)
    (hv : List.Forall₂ (IsDouble A) args vs) (hlen : args.length = symargs.length) :
    ∃ v, evalTree (irMeaning A symargs vs) e = .ok v ∧ call P f args s = (.float v, s) := by
  obtain ⟨W, s0, s1, h1, h2⟩ := hf
  obtain ⟨f', s1', h3, h4⟩ := C59_expression hP symargs e hg hs
    (by simpa [ctypesParams] using C59_parameter_limit h1) s0
  rw [h1] at h3
  simp only [Prod.mk.injEq, Except.ok.injEq] at h3
  obtain ⟨rfl, rfl⟩ := h3
  obtain ⟨v, h5, h6⟩ := h4 W s h2 args vs hv hlen
  exact ⟨v, evaluates_iff.1 h5, h6⟩

theorem nodup_of_mapM {α β : Type} (g : α → PyM β) (l : List α) (bs : List β)
    (h : l.mapM g = .ok bs) (hn : bs.Nodup) : l.Nodup := by
  induction l generalizing bs with
  | nil => exact List.nodup_nil
  | cons a l ih =>
    rw [List.mapM_cons] at h
    cases ha : g a with
    | error err => rw [ha] at h; cases h
    | ok b =>
      cases hl : l.mapM g with
      | error err => rw [ha, hl] at h; cases h
      | ok cs =>
        rw [ha, hl] at h
        obtain rfl := Except.ok.inj h
        have hn' := List.nodup_cons.1 hn
        refine List.nodup_cons.2 ⟨fun hm => hn'.1 ?_, ih cs hl hn'.2⟩
        obtain ⟨i, hi⟩ := List.getElem?_of_mem hm
        obtain ⟨c, hc, hgc⟩ := mapM_getElem? g l cs hl i a hi
        rw [ha] at hgc
        cases hgc
        exact List.mem_of_getElem? hc

theorem goodParams_nodup {S : List Expr} {r : List String} (h : GoodParams S r) : S.Nodup := by
  obtain ⟨names, h1, h2, _⟩ := h
  exact nodup_of_mapM _ _ _ h1 h2

theorem lastAssoc_getElem {K W : Type} [DecidableEq K] {ks : List K} (hn : ks.Nodup) (ws : List W)
    (hlen : ks.length = ws.length) {i : Nat} {k : K} (hk : ks[i]? = some k) :
    lastAssoc k (ks.zip ws) = ws[i]? := by
  induction ks generalizing ws i with
  | nil => simp at hk
  | cons a ks ih =>
    cases ws with
    | nil => simp at hlen
    | cons w ws =>
      have hn' := List.nodup_cons.1 hn
      simp only [List.length_cons, Nat.add_right_cancel_iff] at hlen
      simp only [List.zip_cons_cons, lastAssoc]
      cases i with
      | zero =>
        simp only [List.getElem?_cons_zero, Option.some.injEq] at hk
        subst hk
        rw [lastAssoc_not_mem _ _ _ hn'.1]
        simp
      | succ i =>
        simp only [List.getElem?_cons_succ] at hk ⊢
        rw [ih hn'.2 ws hlen hk]
        have hlt := (List.getElem?_eq_some_iff.1 hk).1
        rw [List.getElem?_eq_getElem (by omega)]

/-! ### C60 -/

/-- **C60, parameters.**  The result does not depend on the order of the parameters or on
parameters that do not occur: if two functions are compiled from the same expression with
different parameter lists, and are called with arguments that agree on the symbols that occur,
they return the same number (in every floating point arithmetic). -/
theorem C60_parameters (hP : PlatformOK P A) (e : Expr) (S S' : List Expr) (hg : GoodParams S)
    (hg' : GoodParams S') (hS : Symbols S) (hS' : Symbols S') (hs : Supported S e)
    (hs' : Supported S' e) (s : Proc F) (f f' : Callable) (hf : Compiled P f S (.expr e) s)
    (hf' : Compiled P f' S' (.expr e) s) (args args' : List (CallArg F)) (vs vs' : List F)
    (hv : List.Forall₂ (IsDouble A) args vs) (hv' : List.Forall₂ (IsDouble A) args' vs')
    (hlen : args.length = S.length) (hlen' : args'.length = S'.length)
    (hagree : ∀ (t : Expr) (i j : Nat), ArgSub e t → S[i]? = some t → S'[j]? = some t →
      vs[i]? = vs'[j]?) :
    ∃ v, call P f args s = (.float v, s) ∧ call P f' args' s = (.float v, s) := by
  obtain ⟨v, h1, h2⟩ := compiled_call hP hg hs hf args vs hv hlen
  obtain ⟨v', h1', h2'⟩ := compiled_call hP hg' hs' hf' args' vs' hv' hlen'
  have hl : S.length = vs.length := hlen ▸ hv.length_eq
  have hl' : S'.length = vs'.length := hlen' ▸ hv'.length_eq
  have hsub : ∀ e : Expr, subst (fun _ => none) e = e := fun e => subst_absent _ _ (fun _ _ => rfl)
  have := evalTree_subst_leaves (σ := fun _ => none) (by simp) (S := S) (irMeaning A S vs)
    (irMeaning A S' vs') rfl e (fun t ht htc => by
      rw [hsub, evalTree_leaf _ (by unfold isLeaf; rw [htc]; rfl),
        evalTree_leaf _ (by unfold isLeaf; rw [htc]; rfl)]
      have : lastAssoc t (S.zip vs) = lastAssoc t (S'.zip vs') := by
        rcases hs.atoms t ht htc with hm | ⟨n, rfl, _⟩
        · obtain ⟨name, rfl⟩ := hS t hm
          rcases hs'.atoms _ ht htc with hm' | ⟨n, hn, _⟩
          · obtain ⟨i, hi⟩ := List.getElem?_of_mem hm
            obtain ⟨j, hj⟩ := List.getElem?_of_mem hm'
            rw [lastAssoc_getElem (goodParams_nodup hg) vs hl hi,
              lastAssoc_getElem (goodParams_nodup hg') vs' hl' hj]
            exact hagree _ i j ht hi hj
          · cases hn
        · rw [lastAssoc_not_mem _ _ _ (fun hm => by obtain ⟨_, h⟩ := hS _ hm; cases h),
            lastAssoc_not_mem _ _ _ (fun hm => by obtain ⟨_, h⟩ := hS' _ hm; cases h)]
      simp only [irMeaning, this]) hs
  rw [hsub, h1, h1'] at this
  obtain rfl := Except.ok.inj this
  exact ⟨v, h2, h2'⟩

theorem items_update {K W : Type} [DecidableEq K] (ps : List (K × W)) (d : Dict K W)
    (h : (d.keys ++ ps.map Prod.fst).Nodup) : (d.update ps).items = d.items ++ ps := by
  induction ps generalizing d with
  | nil => simp [Dict.update]
  | cons p ps ih =>
    have hset : (d.set p.1 p.2).items = d.items ++ [p] := by
      have hp : p.1 ∉ d.keys := by
        rw [List.map_cons, List.nodup_append] at h
        intro hm
        exact h.2.2 _ hm _ (by simp) rfl
      have : ∀ l : List (K × W), p.1 ∉ l.map Prod.fst → Dict.assign p.1 p.2 l = l ++ [p] := by
        intro l
        induction l with
        | nil => intro _; rfl
        | cons q l ihl =>
          intro hq
          obtain ⟨a, b⟩ := q
          simp only [List.map_cons, List.mem_cons, not_or] at hq
          simp only [Dict.assign, if_neg (Ne.symm hq.1), ihl hq.2, List.cons_append]
      exact this _ hp
    show ((d.set p.1 p.2).update ps).items = _
    rw [ih, hset, List.append_assoc]
    · rfl
    · unfold Dict.keys at h ⊢
      rw [hset]
      simpa using h

theorem dictOf_spec (ks gs : List Expr) (hn : ks.Nodup) (hlen : ks.length = gs.length) :
    GoodReps (dictOf ks gs) ∧ (∀ t, repsMap (dictOf ks gs) t = lastAssoc t (ks.zip gs)) ∧
    (dictOf ks gs).items.length = ks.length := by
  have hitems : (dictOf ks gs).items = (ks.zip gs).map fun p => (PyObj.expr p.1, PyObj.expr p.2) := by
    refine (items_update _ _ ?_).trans rfl
    have h1 : ((ks.zip gs).map fun p => (PyObj.expr p.1, PyObj.expr p.2)).map Prod.fst =
        ks.map PyObj.expr := by
      rw [List.map_map]
      conv_rhs => rw [← List.map_fst_zip (l₁ := ks) (l₂ := gs) (by omega)]
      rw [List.map_map]
      rfl
    rw [h1]
    show (ks.map PyObj.expr).Nodup
    exact hn.map (fun a b h => by injection h)
  refine ⟨?_, ?_, by rw [hitems, List.length_map, List.length_zip]; omega⟩
  · intro p hp
    rw [hitems] at hp
    obtain ⟨q, _, rfl⟩ := List.mem_map.1 hp
    exact ⟨q.1, q.2, rfl, rfl⟩
  · intro t
    unfold repsMap
    rw [hitems]
    congr 1
    generalize ks.zip gs = l
    induction l with
    | nil => rfl
    | cons q l ih => rw [List.map_cons]; exact congrArg (q :: ·) ih

/-- **C60, composition.**  Let `r` be `e.xreplace({k1: g1, …, kn: gn})`, where `k1, …, kn` are the
symbols of `e`.  Then `r` can be compiled, and `lambdify(args, r)(*vals)` is
`lambdify([k1, …, kn], e)(lambdify(args, g1)(*vals), …, lambdify(args, gn)(*vals))`, in every
floating point arithmetic.  (`he` is the proviso of C13.) -/
theorem C60_composition (hP : PlatformOK P A) (e : Expr) (ks gs S : List Expr)
    (hk : GoodParams ks) (hg : GoodParams S) (hks : Symbols ks) (hS : Symbols S)
    (hlen : ks.length = gs.length) (he : Supported ks e) (hgs : ∀ g ∈ gs, Supported S g)
    (hroot : e ∉ ks ∨ ks.length = 1) :
    ∃ r, xreplace e (dictOf ks gs) = .ok r ∧ Supported S r ∧
      ∀ (s : Proc F) (f fr : Callable) (fgs : List Callable), Compiled P f ks (.expr e) s →
        Compiled P fr S (.expr r) s →
        List.Forall₂ (fun fg g => Compiled P fg S (.expr g) s) fgs gs →
        ∀ args vs, List.Forall₂ (IsDouble A) args vs → args.length = S.length →
        ∃ ws v, List.Forall₂ (fun fg w => call P fg args s = (.float w, s)) fgs ws ∧
          call P f (ws.map .float) s = (.float v, s) ∧ call P fr args s = (.float v, s) := by
  obtain ⟨h1, h2, h3⟩ := dictOf_spec ks gs (goodParams_nodup hk) hlen
  have hσ : ∀ t, repsMap (dictOf ks gs) t ≠ none → Replaceable t := by
    intro t ht
    rw [h2] at ht
    cases hl : lastAssoc t (ks.zip gs) with
    | none => exact absurd hl ht
    | some g =>
      obtain ⟨n, rfl⟩ := hks t (List.of_mem_zip (lastAssoc_mem hl)).1
      exact replaceable_symbol n
  have hkey : ∀ t ∈ ks, ∃ g ∈ gs, repsMap (dictOf ks gs) t = some g := by
    intro t ht
    obtain ⟨g, hg⟩ := lastAssoc_of_mem t ks gs hlen ht
    exact ⟨g, (List.of_mem_zip (lastAssoc_mem hg)).2, by rw [h2, hg]⟩
  have hr : Supported S (subst (repsMap (dictOf ks gs)) e) := by
    refine supported_subst hσ (fun t ht => ?_) e he
    obtain ⟨g, hg, h⟩ := hkey t ht
    rw [subst_some h]
    exact hgs g hg
  refine ⟨_, C13_xreplace_subst_partial e _ h1 ?_, hr, ?_⟩
  · rcases hroot with h | h
    · left; rw [h2, lastAssoc_not_mem _ _ _ h]
    · right; rw [h3, h]
  intro s f fr fgs hf hfr hfgs args vs hv hl
  -- the values of the inner functions
  have hws : ∃ ws, List.Forall₂ (fun fg w => call P fg args s = (.float w, s)) fgs ws ∧
      List.Forall₂ (fun g w => evalTree (irMeaning A S vs) g = .ok w) gs ws := by
    clear hfr hr hkey hσ h1 h2 h3 hlen
    induction hfgs with
    | nil => exact ⟨[], .nil, .nil⟩
    | @cons fg g fgs gs hfg _ ih =>
      obtain ⟨w, hw1, hw2⟩ := compiled_call hP hg (hgs g (by simp)) hfg args vs hv hl
      obtain ⟨ws, hws1, hws2⟩ := ih (fun g' hg' => hgs g' (by simp [hg']))
      exact ⟨w :: ws, .cons hw2 hws1, .cons hw1 hws2⟩
  obtain ⟨ws, hws1, hws2⟩ := hws
  have hlw : ks.length = ws.length := hlen.trans hws2.length_eq
  obtain ⟨v, hv1, hv2⟩ := compiled_call hP hg hr hfr args vs hv hl
  have hfl : List.Forall₂ (IsDouble A) (ws.map CallArg.float) ws := by
    clear hws1 hws2 hlw
    induction ws with
    | nil => exact .nil
    | cons w ws ih => exact .cons (Or.inl rfl) ih
  obtain ⟨v', hv1', hv2'⟩ := compiled_call hP hk he hf (ws.map .float) ws hfl
    (by rw [List.length_map]; exact hlw.symm)
  have heq := evalTree_subst_leaves hσ (S := ks) (irMeaning A S vs) (irMeaning A ks ws) rfl e
    (fun t ht htc => by
      have hleaf : isLeaf t = true := by unfold isLeaf; rw [htc]; rfl
      rw [evalTree_leaf (irMeaning A ks ws) hleaf]
      rcases he.atoms t ht htc with hm | ⟨n, rfl, _⟩
      · obtain ⟨i, hi⟩ := List.getElem?_of_mem hm
        have hig := lastAssoc_getElem (goodParams_nodup hk) gs hlen hi
        have hiw := lastAssoc_getElem (goodParams_nodup hk) ws hlw hi
        obtain ⟨g, hg, h⟩ := hkey t hm
        rw [h2, hig] at h
        rw [subst_some ((h2 t).trans (hig.trans h))]
        have hi' : i < gs.length := (List.getElem?_eq_some_iff.1 h).1
        have := (List.forall₂_iff_get.1 hws2).2 i hi' (by rw [← hws2.length_eq]; exact hi')
        rw [List.getElem?_eq_getElem hi', Option.some.injEq] at h
        simp only [List.get_eq_getElem] at this
        rw [h] at this
        rw [this]
        simp only [irMeaning, hiw]
        rw [List.getElem?_eq_getElem (by rw [← hws2.length_eq]; exact hi')]
      · have hn : integer n ∉ ks := fun hm => by obtain ⟨_, h⟩ := hks _ hm; cases h
        have hn' : integer n ∉ S := fun hm => by obtain ⟨_, h⟩ := hS _ hm; cases h
        have hσn : repsMap (dictOf ks gs) (integer n) = none := by
          rw [h2, lastAssoc_not_mem _ _ _ hn]
        rw [show subst (repsMap (dictOf ks gs)) (integer n) = integer n from subst_none_atom hσn,
          evalTree_leaf _ rfl]
        simp only [irMeaning, lastAssoc_not_mem _ _ _ hn, lastAssoc_not_mem _ _ _ hn']) he
  rw [hv1, hv1'] at heq
  obtain rfl := Except.ok.inj heq
  exact ⟨ws, v, hws1, hv2', hv2⟩

/-- Every entry can be compiled, whether it is stored or not. -/
theorem entry_supported {S : List Expr} {m : Mat} (hm : MatHistory m) (hs : MatSupported S m)
    {i j : Nat} {e : Expr} (hi : i < m.nrows) (hj : j < m.ncols)
    (he : m.getItem (.pair i j) = .ok e) : Supported S e := by
  by_cases hs' : Stores m i j
  · exact hs i j e hs' he
  · have hw := history_wf hm
    have he0 : e = zero := by
      rw [hw.getItem i j hi hj] at he
      have hnone : m.entry i j = none := by
        cases hme : m.entry i j with
        | none => rfl
        | some w => exact absurd ((hw.stores_iff i j).2 (by rw [hme]; rfl)) hs'
      rw [hnone] at he
      exact (Except.ok.inj he).symm
    subst he0
    exact (supported_leaf rfl).2 (Or.inr ⟨0, rfl, by norm_num⟩)

/-- **C60, matrices.**  The array that a compiled matrix returns holds, at `[i, j]`, the number that
the function compiled from the entry `M[i, j]` returns. -/
theorem C60_matrix_entries (hP : PlatformOK P A) (S : List Expr) (m : Mat) (hm : MatHistory m)
    (hg : GoodParams S ["_out"]) (hs : MatSupported S m) (hsize : m.nrows * m.ncols ≤ 2 ^ 31)
    (hz : zero ∉ S) (s : Proc F) (f : Callable) (hf : Compiled P f S (.matrix m) s)
    (args : List (CallArg F)) (vs : List F) (hv : List.Forall₂ (IsDouble A) args vs)
    (hlen : args.length = S.length) :
    ∃ id cells s', call P f args s = (.array id, s') ∧ s'.arrays[id]? = some cells ∧
      ∀ (i j : Nat) (e : Expr) (fe : Callable), i < m.nrows → j < m.ncols →
        m.getItem (.pair i j) = .ok e → Compiled P fe S (.expr e) s →
        ∃ v, cells[i * m.ncols + j]? = some v ∧ call P fe args s = (.float v, s) := by
  obtain ⟨W, s0, s1, h1, h2⟩ := hf
  obtain ⟨f', s1', h3, h4⟩ := C59_matrix hP S m hm hg hs hsize hz
    (by simpa [ctypesParams] using C59_parameter_limit h1) s0
  rw [h1] at h3
  simp only [Prod.mk.injEq, Except.ok.injEq] at h3
  obtain ⟨rfl, rfl⟩ := h3
  obtain ⟨id, cells, s', h5, h6, h7, h8, h9⟩ := h4 W s h2 args vs hv hlen
  refine ⟨id, cells, s', h5, h9 (fun _ => False) s' (.refl _) (fun h => h), ?_⟩
  intro i j e fe hi hj he hfe
  obtain ⟨e', v, he', hev, hcell⟩ := h8 i j hi hj
  rw [he] at he'
  obtain rfl := Except.ok.inj he'
  have hg0 : GoodParams S := by
    obtain ⟨names, g1, g2, g3⟩ := hg
    exact ⟨names, g1, g2, fun n hn => ⟨(g3 n hn).1, (g3 n hn).2.1, by simp⟩⟩
  obtain ⟨v', hv1, hv2⟩ := compiled_call hP hg0 (entry_supported hm hs hi hj he) hfe args vs hv hlen
  rw [evaluates_iff, hv1] at hev
  obtain rfl := Except.ok.inj hev
  exact ⟨v', hcell, hv2⟩

/-! ### The hypotheses can be met -/

/-- An expression that can be compiled can be compiled at any time. -/
theorem compiled_exists_of_le (hP : PlatformOK P A) {S : List Expr} {e : Expr} (hg : GoodParams S)
    (hs : Supported S e) (s : Proc F) (hn : S.length ≤ P.maxArgs) :
    ∃ f s', Compiled P f S (.expr e) s' ∧ Later P (fun _ => False) s s' := by
  obtain ⟨f, s1, h1, _⟩ := C59_expression hP S e hg hs hn s
  refine ⟨f, s1, ⟨fun _ => False, s, s1, h1, .refl _⟩, ?_⟩
  have := Later.step (P := P) (W := fun _ => False) (Later.refl s)
    (Event.lambdify (S.map .expr) (.expr e) s)
  rw [h1] at this
  exact this

theorem compiled_exists (hP : PlatformOK P A) {S : List Expr} {e : Expr} (hg : GoodParams S)
    (hs : Supported S e) (s : Proc F) (hn : S.length ≤ 1024 := by decide) :
    ∃ f s', Compiled P f S (.expr e) s' ∧ Later P (fun _ => False) s s' := by
  exact compiled_exists_of_le hP hg hs s (hn.trans hP.maxArgs)

/-- There are not more parameters than ctypes supports. -/
theorem compiled_length {f : Callable} {S : List Expr} {e : Expr} {s : Proc F}
    (hf : Compiled P f S (.expr e) s) : S.length ≤ P.maxArgs := by
  obtain ⟨W, s0, s1, h1, h2⟩ := hf
  simpa [ctypesParams] using C59_parameter_limit h1

theorem goodParams_xy : GoodParams [x, y] ∧ GoodParams [y, x] ∧ GoodParams [y] := by
  have key : ∀ t : String, t.toList.head? ≠ some '.' → ∀ n : Nat, t ≠ "." ++ toString n := by
    intro t ht n he
    rw [he] at ht
    simp [String.toList_append] at ht
  have hx : SafeName "x" ∧ (∀ n : Nat, "x" ≠ "." ++ toString n) ∧ "x" ∉ ([] : List String) :=
    ⟨⟨by decide, by decide⟩, key _ (by decide), by simp⟩
  have hy : SafeName "y" ∧ (∀ n : Nat, "y" ≠ "." ++ toString n) ∧ "y" ∉ ([] : List String) :=
    ⟨⟨by decide, by decide⟩, key _ (by decide), by simp⟩
  refine ⟨⟨["x", "y"], rfl, by decide, ?_⟩, ⟨["y", "x"], rfl, by decide, ?_⟩, ⟨["y"], rfl, by decide, ?_⟩⟩
  · intro s hs
    simp only [List.mem_cons, List.not_mem_nil, or_false] at hs
    rcases hs with rfl | rfl <;> assumption
  · intro s hs
    simp only [List.mem_cons, List.not_mem_nil, or_false] at hs
    rcases hs with rfl | rfl <;> assumption
  · intro s hs
    simp only [List.mem_cons, List.not_mem_nil, or_false] at hs
    subst hs; assumption

/-- `lambdify([x, y], x**2 + y)(3, 5)` is `lambdify([y, x], x**2 + y)(5, 3)` in every arithmetic. -/
example (hP : PlatformOK P A) (a b : F) : ∃ f f' s v,
    Compiled P f [x, y] (.expr (add (pow x (integer 2)) y)) s ∧
    Compiled P f' [y, x] (.expr (add (pow x (integer 2)) y)) s ∧
    call P f [.float a, .float b] s = (.float v, s) ∧
    call P f' [.float b, .float a] s = (.float v, s) := by
  obtain ⟨h1, h2, _⟩ := goodParams_xy
  have hs : Supported [x, y] (add (pow x (integer 2)) y) := supported_of_check (by decide +kernel)
  have hs' : Supported [y, x] (add (pow x (integer 2)) y) := supported_of_check (by decide +kernel)
  obtain ⟨f, s1, hf, _⟩ := compiled_exists hP h1 hs Proc.start
  obtain ⟨f', s, hf', hl⟩ := compiled_exists hP h2 hs' s1
  have hf := hf.later hl
  obtain ⟨v, hv, hv'⟩ := C60_parameters hP (add (pow x (integer 2)) y) [x, y] [y, x] h1 h2
    (by intro t ht; simp only [List.mem_cons, List.not_mem_nil, or_false] at ht
        rcases ht with rfl | rfl <;> exact ⟨_, rfl⟩)
    (by intro t ht; simp only [List.mem_cons, List.not_mem_nil, or_false] at ht
        rcases ht with rfl | rfl <;> exact ⟨_, rfl⟩) hs hs' s f f' hf hf' [.float a, .float b]
    [.float b, .float a] [a, b] [b, a] (.cons (Or.inl rfl) (.cons (Or.inl rfl) .nil))
    (.cons (Or.inl rfl) (.cons (Or.inl rfl) .nil)) rfl rfl (by
      intro t i j _ hi hj
      match i, j with
      | 0, 0 => obtain rfl := Option.some.inj hi; exact absurd hj (by decide)
      | 0, 1 => rfl
      | 1, 0 => rfl
      | 1, 1 => obtain rfl := Option.some.inj hi; exact absurd hj (by decide)
      | i + 2, _ => cases hi
      | _, j + 2 => cases hj)
  exact ⟨f, f', s, v, hf, hf', hv, hv'⟩

/-- `(x*y).xreplace({x: sin(y), y: y + 1})` is `sin(y)*(y + 1)`, and compiled it is the composition
of the compiled functions. -/
example (hP : PlatformOK P A) (a : F) : ∃ f f1 f2 fr s v w1 w2,
    Compiled P f [x, y] (.expr (mul x y)) s ∧ Compiled P f1 [y] (.expr (sin y)) s ∧
    Compiled P f2 [y] (.expr (add y (integer 1))) s ∧
    Compiled P fr [y] (.expr (mul (sin y) (add y (integer 1)))) s ∧
    call P f1 [.float a] s = (.float w1, s) ∧ call P f2 [.float a] s = (.float w2, s) ∧
    call P f [.float w1, .float w2] s = (.float v, s) ∧ call P fr [.float a] s = (.float v, s) := by
  obtain ⟨h1, _, h2⟩ := goodParams_xy
  have he : Supported [x, y] (mul x y) := supported_of_check (by decide +kernel)
  have hg1 : Supported [y] (sin y) := supported_of_check (by decide +kernel)
  have hg2 : Supported [y] (add y (integer 1)) := supported_of_check (by decide +kernel)
  obtain ⟨r, hr, hsr, hcomp⟩ := C60_composition (P := P) hP (mul x y) [x, y]
    [sin y, add y (integer 1)] [y] h1 h2
    (by intro t ht; simp only [List.mem_cons, List.not_mem_nil, or_false] at ht
        rcases ht with rfl | rfl <;> exact ⟨_, rfl⟩)
    (by intro t ht; simp only [List.mem_cons, List.not_mem_nil, or_false] at ht
        subst ht; exact ⟨_, rfl⟩) rfl he
    (by intro t ht; simp only [List.mem_cons, List.not_mem_nil, or_false] at ht
        rcases ht with rfl | rfl <;> assumption) (Or.inl (by decide))
  have hr' : xreplace (mul x y) (dictOf [x, y] [sin y, add y (integer 1)]) =
    .ok (mul (sin y) (add y (integer 1))) := by decide +kernel
  rw [hr'] at hr
  obtain rfl := Except.ok.inj hr
  obtain ⟨f, s1, hf, _⟩ := compiled_exists hP h1 he Proc.start
  obtain ⟨f1, s2, hf1, hl1⟩ := compiled_exists hP h2 hg1 s1
  obtain ⟨f2, s3, hf2, hl2⟩ := compiled_exists hP h2 hg2 s2
  obtain ⟨fr, s, hfr, hl3⟩ := compiled_exists hP h2 hsr s3
  have hf := ((hf.later hl1).later hl2).later hl3
  have hf1 := (hf1.later hl2).later hl3
  have hf2 := hf2.later hl3
  obtain ⟨ws, v, hws, hv, hv'⟩ := hcomp s f fr [f1, f2] hf hfr (.cons hf1 (.cons hf2 .nil))
    [.float a] [a] (.cons (Or.inl rfl) .nil) rfl
  cases hws with
  | cons hw1 hws =>
    cases hws with
    | cons hw2 hws =>
      cases hws
      exact ⟨f, f1, f2, fr, s, v, _, _, hf, hf1, hf2, hfr, hw1, hw2, hv, hv'⟩

/-- Compile `Matrix([[x, 0], [2, x*y + 1]])` and its entry `x*y + 1`: at `[1, 1]` the array holds
what the second function returns. -/
example (hP : PlatformOK P A) (a b : F) : ∃ f fe s id cells s' v,
    Compiled P f [x, y] (.matrix sampleMat) s ∧
    Compiled P fe [x, y] (.expr (add (mul x y) (integer 1))) s ∧
    call P f [.float a, .float b] s = (.array id, s') ∧ s'.arrays[id]? = some cells ∧
    cells[3]? = some v ∧ call P fe [.float a, .float b] s = (.float v, s) := by
  obtain ⟨hm, hs, hg, hz, hsize, _⟩ := sampleMat_compiles
  obtain ⟨f, s1, hf, _⟩ := C59_matrix (P := P) hP [x, y] sampleMat hm hg hs hsize hz
    (Nat.le_trans (by decide) hP.maxArgs) Proc.start
  have hf : Compiled P f [x, y] (.matrix sampleMat) s1 := ⟨fun _ => False, _, _, hf, .refl _⟩
  have hse : Supported [x, y] (add (mul x y) (integer 1)) := supported_of_check (by decide +kernel)
  obtain ⟨fe, s, hfe, hl⟩ := compiled_exists hP goodParams_xy.1 hse s1
  have hf := hf.later hl
  obtain ⟨id, cells, s', h1, h2, h3⟩ := C60_matrix_entries hP [x, y] sampleMat hm hg hs hsize hz s f
    hf [.float a, .float b] [a, b] (.cons (Or.inl rfl) (.cons (Or.inl rfl) .nil)) rfl
  obtain ⟨v, h4, h5⟩ := h3 1 1 _ fe (by decide) (by decide) rfl hfe
  exact ⟨f, fe, s, id, cells, s', v, hf, hfe, h1, h2, h4, h5⟩

end Verif.Props
