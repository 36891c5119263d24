import Verif.Lemmas.ClientEval

/-!
# Reading a whole expression from its object
-/

set_option linter.unusedSectionVars false

namespace Verif.Store
open List (Forall₂)
open Verif.Spec
variable {V K T A : Type} [DecidableEq K] [PyVal V K] {vals vals' : List (Ex K)}

/-- What has been read is right. -/
def ReadAt (vals : List (Ex K)) (d : List (Nat × Tree K)) : Prop := ∀ p ∈ d, At vals p.1 p.2

theorem ReadAt.mono {d : List (Nat × Tree K)} (h : ReadAt vals d) (hp : vals <+: vals') :
    ReadAt vals' d := fun p hpd => (h p hpd).mono hp

theorem computes_readItem {d : List (Nat × Tree K)} {h : Nat} {t : Tree K} (hd : ReadAt vals d)
    (ha : At vals h t) (hm : t ∈ d.map Prod.snd) :
    Computes vals (Prog.getItem d h : Prog V K (Tree K)) (fun _ a b => a = b) (.ok t) := by
  have lk : Computes vals (Prog.lookup h d : Prog V K (Option (Tree K))) (fun _ a b => a = b)
      (.ok (some t)) := by
    induction d with
    | nil => simp at hm
    | cons p d ih =>
      obtain ⟨n, w⟩ := p
      unfold Prog.lookup
      refine computes_same (hd (n, w) (by simp)) ha ?_
      by_cases hw : w = t
      · subst hw
        simp only [decide_true, if_true]
        exact .ret rfl
      · simp only [hw, decide_false, Bool.false_eq_true, if_false]
        refine ih (fun p hp => hd p (by simp [hp])) ?_
        simp only [List.map_cons, List.mem_cons] at hm
        exact hm.resolve_left (fun h => hw h.symm)
  refine Computes.bindOk lk ?_
  rintro v _ hp rfl
  exact .ret rfl

theorem computes_readLoop : ∀ (hs : List Nat) (ts : List (Tree K)) (d : List (Nat × Tree K))
    (vals : List (Ex K)), Ats vals hs ts → ReadAt vals d →
    (∀ pre t post, ts = pre ++ t :: post → ∀ c ∈ t.children, c ∈ d.map Prod.snd ∨ c ∈ pre) →
    Computes vals (Prog.readLoop d hs : Prog V K (List (Nat × Tree K)))
      (fun v d' _ => ReadAt v d' ∧ ∀ t, t ∈ ts ∨ t ∈ d.map Prod.snd → t ∈ d'.map Prod.snd) (.ok ()) := by
  intro hs
  induction hs with
  | nil => intro ts d vals ha hd _; cases ha; exact .ret ⟨hd, by simp⟩
  | cons n hs ih =>
    intro ts d vals ha hd hargs
    cases ha with
    | @cons _ t _ ts h1 h2 =>
      have next : ∀ v, vals <+: v → Computes v (Prog.readLoop ((n, t) :: d) hs :
          Prog V K (List (Nat × Tree K)))
          (fun v d' _ => ReadAt v d' ∧ ∀ u, u ∈ t :: ts ∨ u ∈ d.map Prod.snd → u ∈ d'.map Prod.snd)
          (.ok ()) := by
        intro v hp
        refine (ih ts _ v (Ats.mono h2 hp) ?_ ?_).weaken ?_
        · intro p hpd
          rcases List.mem_cons.1 hpd with rfl | h
          · exact h1.mono hp
          · exact hd.mono hp p h
        · intro pre u post hts c hc
          rcases hargs (t :: pre) u post (by rw [hts]; rfl) c hc with h | h
          · left; simp only [List.map_cons, List.mem_cons]; exact Or.inr h
          · rcases List.mem_cons.1 h with rfl | h
            · left; simp
            · exact Or.inr h
        · rintro v' d' _ _ ⟨g1, g2⟩
          refine ⟨g1, fun u hu => g2 u ?_⟩
          simp only [List.map_cons, List.mem_cons]
          rcases hu with hu | hu
          · rcases List.mem_cons.1 hu with rfl | hu
            · exact Or.inr (Or.inl rfl)
            · exact Or.inl hu
          · exact Or.inr (Or.inr hu)
      have h1' := h1
      unfold At at h1'
      cases t with
      | atom a =>
        refine Computes.step (vals' := vals ++ [.atom a])
          (p' := Prog.atomParts vals.length >>= fun p => Prog.readLoop ((n, .atom ⟨p.1, p.2⟩) :: d) hs)
          ?_ (List.prefix_append _ _) ?_
        · simp only [valueStep, Prog.readLoop, h1', Option.map_some, Ex.parts, Ex.view]
        · refine Computes.bindOk (computes_atomParts (a := a) (by simp)) ?_
          rintro v _ hp rfl
          exact next v ((List.prefix_append _ _).trans hp)
      | node us =>
        refine Computes.step (vals' := vals ++ us.map .tree)
          (p' := Prog.each (Prog.getItem d) (List.range' vals.length us.length) >>=
            fun ts => Prog.readLoop ((n, .node ts) :: d) hs)
          ?_ (List.prefix_append _ _) ?_
        · simp only [valueStep, Prog.readLoop, h1', Option.map_some, Ex.parts, Ex.view]
        · have hus : ∀ u ∈ us, u ∈ d.map Prod.snd := by
            intro u hu
            rcases hargs [] (.node us) ts rfl u (by simpa [Tree.children] using hu) with h | h
            · exact h
            · simp at h
          have he : Computes (vals ++ us.map .tree)
              (Prog.each (Prog.getItem d) (List.range' vals.length us.length) : Prog V K (List (Tree K)))
              (fun _ a b => a = b) (.ok us) := by
            have hq : us.mapM (fun e => (.ok e : PyM (Tree K))) = .ok us := by
              have := mapM_ok (fun q : Tree K => q) us
              simpa using this
            rw [← hq]
            refine Computes.weaken (rel := fun _ => Forall₂ (fun a b => a = b)) ?_
              (fun _ _ _ _ h => forall₂_eq h)
            refine computes_each (vals := vals ++ us.map .tree)
              (relI := fun v n u => At v n u ∧ u ∈ d.map Prod.snd) (relO := fun _ a b => a = b)
              (fun h hp => ⟨h.1.mono hp, h.2⟩) (fun h _ => h) ?_ _ _ us (List.prefix_refl _) ?_
            · rintro v m u hv ⟨g1, g2⟩
              exact computes_readItem ((hd.mono (List.prefix_append _ _)).mono hv) g1 g2
            · have := ats_range' us vals
              rw [Ats, List.forall₂_iff_zip] at this
              rw [List.forall₂_iff_zip]
              refine ⟨this.1, fun {a b} hab => ⟨this.2 hab, hus b (List.of_mem_zip hab).2⟩⟩
          refine Computes.bindOk he ?_
          rintro v _ hp rfl
          exact next v ((List.prefix_append _ _).trans hp)

theorem kids_true (t : Tree K) : kids true t = t.children := by
  match t with
  | .atom _ => rfl
  | .node [] => rfl
  | .node (h :: args) => rfl

theorem computes_readTree {h : Nat} {t : Tree K} (ha : At vals h t) :
    Computes vals (Prog.readTree h : Prog V K (Tree K)) (fun _ a b => a = b) (.ok t) := by
  obtain ⟨_, hnd, hbef, hlast⟩ := Props.C05_topological_sort true t
  refine Computes.bindOk (computes_sort true .nil ha) ?_
  intro v l hp hl
  have hread : Computes v (Prog.readLoop [] l : Prog V K (List (Nat × Tree K)))
      (fun v d' _ => ReadAt v d' ∧ ∀ u, u ∈ topologicalSort true [] t ∨ u ∈ [] → u ∈ d'.map Prod.snd)
      (.ok ()) := by
    refine computes_readLoop l _ [] v hl (by intro p hp; simp at hp) ?_
    intro pre u post hsplit c hc
    right
    have hu : u ∈ topologicalSort true [] t := by rw [hsplit]; simp
    obtain ⟨i, j, hij, hi, hj⟩ := hbef u hu c (by rw [kids_true]; exact hc)
    have hju : j = pre.length := by
      have h1 : (topologicalSort true [] t)[pre.length]? = some u := by rw [hsplit]; simp
      obtain ⟨a1, b1⟩ := List.getElem?_eq_some_iff.1 hj
      obtain ⟨a2, b2⟩ := List.getElem?_eq_some_iff.1 h1
      exact (List.getElem_inj hnd).1 (b1.trans b2.symm)
    rw [hsplit, List.getElem?_append_left (by omega)] at hi
    exact List.mem_of_getElem? hi
  refine Computes.bindOk hread ?_
  rintro v1 d hp1 ⟨g1, g2⟩
  refine computes_readItem g1 (ha.mono (hp.trans hp1)) (g2 t (Or.inl ?_))
  exact List.mem_of_getLast? hlast

end Verif.Store
