import Verif.Lemmas.MatrixThreads
import Verif.Spec.MatrixThreads
import Verif.Props.MatrixHeap

/-!
# C79: matrices are shared between threads, and operations on them interrupted
-/

namespace Verif.Props
open Spec Expr HProg

/-- What a thread that sees `h` relies on between its statements: its matrices are matrices, and its lists
are its own and are no matrix's. -/
structure TInv (M : Nat) (h : Heap) (ms : List HMat) (us : List Nat) : Prop where
  mats : ∀ m ∈ ms, ∃ A, viewMat h m = some A ∧ MatHistory A
  user : ∃ U : Nat → Prop, (∀ r ∈ us, U r) ∧ ∀ r, U r → M ≤ r ∧ (∀ m ∈ ms, m.elements ≠ r) ∧
    ∃ l, h[r]? = some (.list l) ∧ ∀ r', Cell.ref r' ∈ l → U r'

theorem TInv.prefix {M : Nat} {h h' : Heap} {mats user} (hi : TInv M h mats user) (hp : h <+: h') :
    TInv M h' mats user := by
  refine ⟨fun m hm => ?_, ?_⟩
  · obtain ⟨A, h1, h2⟩ := hi.mats m hm
    exact ⟨A, viewMat_prefix hp h1, h2⟩
  · obtain ⟨U, h1, h2⟩ := hi.user
    refine ⟨U, h1, fun r hr => ?_⟩
    obtain ⟨h3, h4, l, h5, h6⟩ := h2 r hr
    exact ⟨h3, h4, l, getElem?_prefix hp h5, h6⟩

theorem TInv.addMat {M : Nat} {h h' : Heap} {mats user} (hi : TInv M h mats user) (hp : h <+: h')
    {m : HMat} {A : Mat} (hv : viewMat h' m = some A) (hA : MatHistory A) (hm : h.length ≤ m.elements) :
    TInv M h' (m :: mats) user := by
  refine ⟨fun a ha => ?_, ?_⟩
  · rcases List.mem_cons.1 ha with rfl | ha
    · exact ⟨A, hv, hA⟩
    · exact (hi.prefix hp).mats a ha
  · obtain ⟨U, h1, h2⟩ := hi.user
    refine ⟨U, h1, fun r hr => ?_⟩
    obtain ⟨h3, h4, l, h5, h6⟩ := h2 r hr
    refine ⟨h3, fun a ha => ?_, l, getElem?_prefix hp h5, h6⟩
    rcases List.mem_cons.1 ha with rfl | ha
    · have := (List.getElem?_eq_some_iff.1 h5).1
      omega
    · exact h4 a ha

theorem TInv.elements_lt {M : Nat} {h : Heap} {mats user} (hi : TInv M h mats user) {m : HMat}
    (hm : m ∈ mats) : m.elements < h.length := by
  obtain ⟨A, h1, _⟩ := hi.mats m hm
  exact (List.getElem?_eq_some_iff.1 (viewList_iff.1 (viewMat_iff.1 h1).1)).1

/-- A new list, with new lists in it or the thread's own ones. -/
theorem TInv.addList {M : Nat} {h h' : Heap} {mats user} (hi : TInv M h mats user) (hp : h <+: h')
    (hM : M ≤ h.length) {r : Nat} {l : List Cell} (hr : h.length ≤ r) (hl : h'[r]? = some (.list l))
    (hc : ∀ r', Cell.ref r' ∈ l → r' ∈ user ∨
      (h.length ≤ r' ∧ ∃ l', h'[r']? = some (.list l') ∧ ∀ r'', Cell.ref r'' ∉ l')) :
    TInv M h' mats (r :: user) := by
  refine ⟨(hi.prefix hp).mats, ?_⟩
  obtain ⟨U, h1, h2⟩ := hi.user
  refine ⟨fun q => U q ∨ q = r ∨ (h.length ≤ q ∧ ∃ l', h'[q]? = some (.list l') ∧
    ∀ r'', Cell.ref r'' ∉ l'), ?_, ?_⟩
  · intro q hq
    rcases List.mem_cons.1 hq with rfl | hq
    · exact .inr (.inl rfl)
    · exact .inl (h1 q hq)
  · intro q hq
    have new : h.length ≤ q → M ≤ q ∧ ∀ m ∈ mats, m.elements ≠ q := fun hle => by
      refine ⟨by omega, fun m hm => ?_⟩
      have := hi.elements_lt hm
      omega
    rcases hq with hq | rfl | ⟨hq, l', h3, h4⟩
    · obtain ⟨h3, h4, l, h5, h6⟩ := h2 q hq
      exact ⟨h3, h4, l, getElem?_prefix hp h5, fun r' hr' => .inl (h6 r' hr')⟩
    · refine ⟨(new hr).1, (new hr).2, l, hl, fun r' hr' => ?_⟩
      rcases hc r' hr' with h3 | h3
      · exact .inl (h1 r' h3)
      · exact .inr (.inr h3)
    · exact ⟨(new hq).1, (new hq).2, l', h3, fun r' hr' => absurd hr' (h4 r')⟩

theorem TInv.write {M : Nat} {h : Heap} {mats user} (hi : TInv M h mats user) {r : Nat}
    {l : List Cell} (hr : r ∈ user) (hl : ∀ r', Cell.ref r' ∈ l → r' ∈ user) :
    TInv M (h.set r (.list l)) mats user ∧
    ∀ m ∈ mats, viewMat (h.set r (.list l)) m = viewMat h m := by
  obtain ⟨U, h1, h2⟩ := hi.user
  obtain ⟨_, hne, old, hold, _⟩ := h2 r (h1 r hr)
  have hv : ∀ m ∈ mats, viewMat (h.set r (.list l)) m = viewMat h m := by
    intro m hm
    obtain ⟨A, h3, _⟩ := hi.mats m hm
    rw [h3]
    obtain ⟨h4, h5, h6⟩ := viewMat_iff.1 h3
    refine viewMat_iff.2 ⟨viewList_iff.2 ?_, viewDict_iff.2 ?_, h6⟩
    · rw [List.getElem?_set_ne (fun h => hne m hm h.symm)]
      exact viewList_iff.1 h4
    · have h5 := viewDict_iff.1 h5
      rw [List.getElem?_set_ne]
      · exact h5
      · intro h
        rw [← h, hold] at h5
        cases h5
  refine ⟨⟨fun m hm => ?_, U, h1, fun q hq => ?_⟩, hv⟩
  · obtain ⟨A, h3, h4⟩ := hi.mats m hm
    exact ⟨A, (hv m hm).trans h3, h4⟩
  · obtain ⟨h3, h4, l', h5, h6⟩ := h2 q hq
    refine ⟨h3, h4, ?_⟩
    by_cases hqr : q = r
    · subst hqr
      rw [List.getElem?_set_self (List.getElem?_eq_some_iff.1 h5).1]
      exact ⟨l, rfl, fun r' hr' => h1 r' (hl r' hr')⟩
    · rw [List.getElem?_set_ne (fun h => hqr h.symm)]
      exact ⟨l', h5, h6⟩

theorem TInv.viewEntries {M : Nat} {h h' : Heap} {mats user} (hi : TInv M h mats user) (hp : h <+: h')
    {c : Cell} (hc : ∀ r, c = .ref r → r ∈ user) : viewEntries h' c = viewEntries h c := by
  cases c with
  | obj o => rfl
  | ref r =>
    obtain ⟨U, h1, h2⟩ := hi.user
    obtain ⟨_, _, l, h3, h4⟩ := h2 r (h1 r (hc r rfl))
    simp only [Spec.viewEntries, h3, getElem?_prefix hp h3]
    refine congrArg _ (List.map_congr_left fun c hm => ?_)
    cases c with
    | obj o => rfl
    | ref r' =>
      obtain ⟨_, _, l', h5, _⟩ := h2 r' (h4 r' hm)
      simp only [viewRow, h5, getElem?_prefix hp h5]

/-- What holds of a thread while a statement runs: the statement began with `h0`, and what remains of it
gives what the whole gives without a break. -/
def Busy (M : Nat) (x : MThread) (h : Heap) (st : TStmt) (p : HProg TOut) : Prop :=
  match st with
  | .write r l => p = (TStmt.write r l).prog ∨ (p = .ret .nothing ∧ h[r]? = some (.list l))
  | st => ∃ h0, TInv M h0 x.mats x.user ∧ h0 <+: h ∧ M ≤ h0.length ∧
      Keeps h0.length p (fun _ _ => True) h ∧ denote p h = denote st.prog h0

/-- The invariant of a thread. -/
def ThreadOk (shared : Heap) (x : MThread) : Prop :=
  TInv shared.length (shared ++ x.own) x.mats x.user ∧
  match x.run with
  | none => True
  | some (st, p) => x.CanDo st ∧ Busy shared.length x (shared ++ x.own) st p

theorem keeps_prog {M : Nat} (st : TStmt) (hw : ∀ r l, st ≠ .write r l) (h : Heap) (hM : M ≤ h.length) :
    Keeps M st.prog (fun _ _ => True) h := by
  cases st with
  | write r l => exact absurd rfl (hw r l)
  | list l => trivial
  | item r i => simp [TStmt.prog, keeps_bind, keeps_getIdx, keeps_pure]
  | new c => exact (keeps_bind _ _ _ _).2 (TMat.keeps_new c hM fun _ _ _ => trivial)
  | binop a b f => exact (keeps_bind _ _ _ _).2 (TMat.keeps_binop a b f hM fun _ _ _ => trivial)
  | diff a sym p => exact (keeps_bind _ _ _ _).2 (TMat.keeps_diff a sym p fun _ _ _ => trivial)
  | tolist a => exact (keeps_bind _ _ _ _).2 (TMat.keeps_tolist a hM fun _ _ _ => trivial)
  | getItem a ij => exact (keeps_bind _ _ _ _).2 (TMat.keeps_getItem a ij fun _ => trivial)

theorem busy_begin {M : Nat} {x : MThread} {h : Heap} (hi : TInv M h x.mats x.user)
    (hM : M ≤ h.length) (st : TStmt) : Busy M x h st st.prog := by
  cases st with
  | write r l => exact .inl rfl
  | _ => exact ⟨h, hi, List.prefix_refl _, hM, keeps_prog _ (by intro _ _ h; cases h) h (Nat.le_refl _), rfl⟩

theorem busy_alloc {M : Nat} {x : MThread} {h : Heap} {st : TStmt} {o : HObj} {k : Nat → HProg TOut}
    (hb : Busy M x h st (.alloc o k)) : Busy M x (h ++ [o]) st (k h.length) := by
  cases st with
  | write r l =>
    rcases hb with hb | ⟨hb, _⟩ <;> cases hb
  | _ =>
    obtain ⟨h0, h1, h2, h3, h4, h5⟩ := hb
    exact ⟨h0, h1, h2.trans (List.prefix_append _ _), h3, h4, h5⟩

theorem busy_look {M : Nat} {x : MThread} {h : Heap} {st : TStmt} {r : Nat}
    {k : Option HObj → HProg TOut} (hb : Busy M x h st (.look r k)) : Busy M x h st (k h[r]?) := by
  cases st with
  | write r l =>
    rcases hb with hb | ⟨hb, _⟩ <;> cases hb
  | _ =>
    obtain ⟨h0, h1, h2, h3, h4, h5⟩ := hb
    exact ⟨h0, h1, h2, h3, h4, h5⟩

theorem prefix_set {h0 h : Heap} (hp : h0 <+: h) {r : Nat} (hr : h0.length ≤ r) (o : HObj) :
    h0 <+: h.set r o := by
  obtain ⟨t, rfl⟩ := hp
  rw [List.set_append_right _ _ hr]
  exact List.prefix_append _ _

/-- A change that a running statement makes is a change of what is the thread's own, and its matrices stay
what they are. -/
theorem busy_write {M : Nat} {x : MThread} {h : Heap} {st : TStmt} {r : Nat} {o : HObj}
    {k : Unit → HProg TOut} (hi : TInv M h x.mats x.user) (hd : x.CanDo st)
    (hb : Busy M x h st (.write r o k)) :
    M ≤ r ∧ TInv M (h.set r o) x.mats x.user ∧ Busy M x (h.set r o) st (k ()) ∧
    ∀ m ∈ x.mats, viewMat (h.set r o) m = viewMat h m := by
  have gen : (∃ h0, TInv M h0 x.mats x.user ∧ h0 <+: h ∧ M ≤ h0.length ∧
      Keeps h0.length (.write r o k) (fun _ _ => True) h ∧
      denote (.write r o k) h = denote st.prog h0) →
      M ≤ r ∧ TInv M (h.set r o) x.mats x.user ∧ (∃ h0, TInv M h0 x.mats x.user ∧ h0 <+: h.set r o ∧
        M ≤ h0.length ∧ Keeps h0.length (k ()) (fun _ _ => True) (h.set r o) ∧
        denote (k ()) (h.set r o) = denote st.prog h0) ∧
      ∀ m ∈ x.mats, viewMat (h.set r o) m = viewMat h m := by
    rintro ⟨h0, h1, h2, h3, h4, h5⟩
    have hp := prefix_set h2 h4.1 o
    refine ⟨Nat.le_trans h3 h4.1, h1.prefix hp, ⟨h0, h1, hp, h3, h4.2, h5⟩, fun m hm => ?_⟩
    obtain ⟨A, h6, _⟩ := h1.mats m hm
    rw [viewMat_prefix h2 h6, viewMat_prefix hp h6]
  cases st with
  | write r' l =>
    rcases hb with hb | ⟨hb, _⟩
    · cases hb
      obtain ⟨hr, hl⟩ := hd
      obtain ⟨h1, h2⟩ := hi.write hr (fun r' hr' => hl _ hr' r' rfl)
      obtain ⟨U, h3, h4⟩ := hi.user
      obtain ⟨h5, _, old, h6, _⟩ := h4 r (h3 r hr)
      exact ⟨h5, h1, .inr ⟨rfl, List.getElem?_set_self (List.getElem?_eq_some_iff.1 h6).1⟩, h2⟩
    · cases hb
  | _ => exact gen hb

theorem hm_map_run {α β : Type} (x : HM α) (g : α → β) (h : Heap) :
    (x >>= fun a => (pure (g a) : HM β)) h = ((x h).1.map g, (x h).2) := by
  rw [HM.bind_run]
  rcases hx : x h with ⟨_ | _, _⟩ <;> rfl

/-- What a program gives if it is run without a break. -/
theorem run_ret {α β : Type} {x : HProg α} {g : α → β} {h0 h : Heap} {res : PyM β}
    (hr : ((res, h) : PyM β × Heap) = denote (x >>= fun a => pure (g a)) h0) :
    h = (denote x h0).2 ∧ res = (denote x h0).1.map g := by
  rw [denote_bind] at hr
  have := hr.trans (hm_map_run (denote x) g h0)
  exact ⟨congrArg Prod.snd this, congrArg Prod.fst this⟩

theorem gives_mat {M : Nat} {h0 h : Heap} {mats user} (hi : TInv M h0 mats user) {spec : PyM Mat}
    {c : HM HMat} {res : PyM TOut} (hm : HMat.Makes h0 spec (c h0)) (hA : ∀ A, spec = .ok A → MatHistory A)
    (hh : h = (c h0).2) (hres : res = (c h0).1.map TOut.mat) :
    Gives h viewMat .mat spec res ∧
    ∀ m, res = .ok (.mat m) → TInv M h (m :: mats) user := by
  subst hh hres
  obtain ⟨hg, hm⟩ := hm
  cases spec with
  | error e =>
    rw [show (c h0).1 = .error e from hm]
    exact ⟨rfl, nofun⟩
  | ok A =>
    obtain ⟨m, h1, h2, h3⟩ := hm
    rw [h1]
    refine ⟨⟨m, rfl, h2⟩, fun m' hm' => ?_⟩
    cases hm'
    exact hi.addMat hg.prefix h2 (hA A rfl) h3

theorem mapM_some_mem {α β : Type} {g : α → Option β} {l : List α} {bs : List β}
    (h : l.mapM g = some bs) {a : α} (ha : a ∈ l) : ∃ b, g a = some b := by
  induction l generalizing bs with
  | nil => simp at ha
  | cons c l ih =>
    rw [List.mapM_cons] at h
    cases hc : g c with
    | none => simp [hc] at h
    | some b =>
      cases hl : l.mapM g with
      | none => simp [hc, hl] at h
      | some bs' =>
        rcases List.mem_cons.1 ha with rfl | ha
        · exact ⟨b, hc⟩
        · exact ih hl ha

/-- What remains of a statement that has come to its end. -/
def ended (res : PyM TOut) : HProg TOut :=
  match res with
  | .ok o => .ret o
  | .error e => .raise e

/-- The end of a statement. -/
theorem busy_ends {M : Nat} {x : MThread} {h : Heap} {st : TStmt} {res : PyM TOut}
    (hi : TInv M h x.mats x.user) (hd : x.CanDo st) (hb : Busy M x h st (ended res)) :
    Means h st res ∧ ∀ o, res = .ok o → TInv M h (x.gets o).mats (x.gets o).user := by
  have hden : denote (ended res) h = (res, h) := by cases res <;> rfl
  cases st with
  | write r l =>
    cases res with
    | error e => rcases hb with hb | ⟨hb, _⟩ <;> cases hb
    | ok o =>
      rcases hb with hb | ⟨hb, h1⟩
      · cases hb
      · cases hb
        exact ⟨⟨rfl, h1⟩, fun o ho => by cases ho; exact hi⟩
  | list l =>
    obtain ⟨h0, h1, h2, h3, _, h5⟩ := hb
    rw [hden] at h5
    cases h5
    have hl : (h0 ++ [HObj.list l])[h0.length]? = some (.list l) := by simp
    refine ⟨⟨h0.length, rfl, hl⟩, fun o ho => ?_⟩
    cases ho
    exact h1.addList (List.prefix_append _ _) h3 (Nat.le_refl _) hl
      fun r' hr' => .inl (hd _ hr' r' rfl)
  | item r i =>
    obtain ⟨h0, h1, h2, h3, _, h5⟩ := hb
    rw [hden] at h5
    obtain ⟨hh, hr⟩ := run_ret (g := TOut.cell) (x := getIdx r i) h5
    rw [denote_getIdx] at hh hr
    obtain ⟨U, h6, h7⟩ := h1.user
    obtain ⟨_, _, l, h8, h9⟩ := h7 r (h6 r hd)
    rw [HM.getIdx_run i h8] at hh hr
    subst hh
    refine ⟨⟨l, h8, ?_⟩, fun o ho => ?_⟩
    · rw [hr]
      cases pyGet l i with
      | ok c => exact ⟨c, rfl, rfl⟩
      | error e => rfl
    · rw [ho] at hr
      cases hc : pyGet l i with
      | error e => rw [hc] at hr; cases hr
      | ok c =>
        rw [hc] at hr
        cases hr
        cases c with
        | obj c => exact hi
        | ref r' =>
          refine ⟨h1.mats, U, fun q hq => ?_, h7⟩
          rcases List.mem_cons.1 hq with rfl | hq
          · refine h9 _ ?_
            unfold pyGet at hc
            split at hc
            · rename_i y hy
              cases hc
              exact List.mem_of_getElem? hy
            · cases hc
          · exact h6 q hq
  | new c =>
    obtain ⟨h0, h1, h2, h3, _, h5⟩ := hb
    rw [hden] at h5
    obtain ⟨hh, hr⟩ := run_ret (g := TOut.mat) (x := TMat.new c) h5
    rw [TMat.denote_new] at hh hr
    obtain ⟨h6, h7⟩ := gives_mat h1 (HMat.new_makes c h0) (fun A hA => .new hA) hh hr
    refine ⟨?_, fun o ho => ?_⟩
    · change Gives h viewMat .mat (Mat.new (viewEntries h c)) res
      rw [h1.viewEntries h2 hd]
      exact h6
    · subst ho
      cases hm : (HMat.new c h0).1 with
      | error e => rw [hm] at hr; cases hr
      | ok m =>
        rw [hm] at hr
        cases hr
        exact h7 m rfl
  | binop a b f =>
    obtain ⟨h0, h1, h2, h3, _, h5⟩ := hb
    rw [hden] at h5
    obtain ⟨hh, hr⟩ := run_ret (g := TOut.mat) (x := TMat.binop a b f) h5
    rw [TMat.denote_binop] at hh hr
    obtain ⟨A, hA, hA'⟩ := h1.mats a hd.1
    obtain ⟨B, hB, hB'⟩ := h1.mats b hd.2
    obtain ⟨h6, h7⟩ := gives_mat h1 (HMat.binop_makes a b f h0 A B hA hB)
      (fun C hC => .binop hA' hB' hC) hh hr
    refine ⟨⟨A, B, viewMat_prefix h2 hA, viewMat_prefix h2 hB, h6⟩, fun o ho => ?_⟩
    subst ho
    cases hm : (a.binop b f h0).1 with
    | error e => rw [hm] at hr; cases hr
    | ok m =>
      rw [hm] at hr
      cases hr
      exact h7 m rfl
  | diff a sym p =>
    obtain ⟨h0, h1, h2, h3, _, h5⟩ := hb
    rw [hden] at h5
    obtain ⟨hh, hr⟩ := run_ret (g := TOut.mat) (x := TMat.diff a sym p) h5
    rw [TMat.denote_diff] at hh hr
    obtain ⟨A, hA, hA'⟩ := h1.mats a hd.1
    obtain ⟨h6, h7⟩ := gives_mat h1 (HMat.diff_makes a sym p h0 A hA)
      (fun C hC => .diff hA' hd.2 hC) hh hr
    refine ⟨⟨A, viewMat_prefix h2 hA, h6⟩, fun o ho => ?_⟩
    subst ho
    cases hm : (a.diff sym p h0).1 with
    | error e => rw [hm] at hr; cases hr
    | ok m =>
      rw [hm] at hr
      cases hr
      exact h7 m rfl
  | tolist a =>
    obtain ⟨h0, h1, h2, h3, _, h5⟩ := hb
    rw [hden] at h5
    obtain ⟨hh, hr⟩ := run_ret (g := fun r => TOut.cell (.ref r)) (x := TMat.tolist a) h5
    rw [TMat.denote_tolist] at hh hr
    obtain ⟨A, hA, hA'⟩ := h1.mats a hd
    obtain ⟨hg, h6⟩ := HMat.tolist_run a h0 A hA
    rw [← hh] at hg h6
    cases hs : A.tolist with
    | error e =>
      rw [hs] at h6
      rw [show (a.tolist h0).1 = .error e from h6] at hr
      cases hr
      exact ⟨⟨A, viewMat_prefix h2 hA, by rw [hs]; rfl⟩, nofun⟩
    | ok g =>
      rw [hs] at h6
      obtain ⟨r, h7, h8, h9, h10⟩ := h6
      rw [h7] at hr
      cases hr
      refine ⟨⟨A, viewMat_prefix h2 hA, by rw [hs]; exact ⟨r, rfl, h8⟩⟩, fun o ho => ?_⟩
      cases ho
      obtain ⟨t, ht, hg⟩ := hg
      cases hl : h[r]? with
      | none => simp [viewRows, hl] at h8
      | some obj =>
        cases obj with
        | dict d => simp [viewRows, hl] at h8
        | list l =>
          refine h1.addList h2 h3 h9 hl fun r' hr' => .inr ?_
          have hmem : HObj.list l ∈ t := by
            rw [ht, List.getElem?_append_right h9] at hl
            exact List.mem_of_getElem? hl
          refine ⟨(hg l hmem r' hr').2.1, ?_⟩
          simp only [viewRows, hl] at h8
          obtain ⟨es, h11⟩ := mapM_some_mem h8 hr'
          have h11 := viewList_iff.1 h11
          exact ⟨_, h11, fun r'' => HMat.ref_not_mem_exprCells⟩
  | getItem a ij =>
    obtain ⟨h0, h1, h2, h3, _, h5⟩ := hb
    rw [hden] at h5
    obtain ⟨hh, hr⟩ := run_ret (g := TOut.expr) (x := TMat.getItem a ij) h5
    rw [TMat.denote_getItem] at hh hr
    obtain ⟨A, hA, hA'⟩ := h1.mats a hd
    rw [HMat.getItem_run a ij h0 A hA] at hh hr
    subst hh
    refine ⟨⟨A, hA, ?_⟩, fun o ho => ?_⟩
    · rw [hr]
      cases A.getItem ij with
      | ok c => exact ⟨c, rfl, rfl⟩
      | error e => rfl
    · rw [ho] at hr
      cases hc : A.getItem ij with
      | error e => rw [hc] at hr; cases hr
      | ok c =>
        rw [hc] at hr
        cases hr
        exact hi

/-! ### The process -/

/-- The invariant of the process. -/
def MInv (shared : Heap) (s : MState) : Prop := s.shared = shared ∧ ∀ t, ThreadOk shared (s.thread t)

theorem minv_set {shared : Heap} {s : MState} (hi : MInv shared s) (t : Nat) {x : MThread}
    (hx : ThreadOk shared x) : MInv shared (s.set t x) := by
  refine ⟨hi.1, fun t' => ?_⟩
  by_cases h : t' = t
  · simpa [MState.set, h] using hx
  · simpa [MState.set, h] using hi.2 t'

theorem heap_set (s : MState) (t t' : Nat) (x : MThread) :
    (s.set t x).heap t' = if t' = t then s.shared ++ x.own else s.heap t' := by
  by_cases h : t' = t <;> simp [MState.heap, MState.set, h]

theorem thread_set (s : MState) (t t' : Nat) (x : MThread) :
    (s.set t x).thread t' = if t' = t then x else s.thread t' := by rfl

theorem set_own (shared own : Heap) {r : Nat} (hr : shared.length ≤ r) (o : HObj) :
    shared ++ own.set (r - shared.length) o = (shared ++ own).set r o := by
  rw [List.set_append_right _ _ hr]

/-- A change of a list or dict is a change of one that the thread made. -/
theorem write_own {shared : Heap} {s : MState} (hi : MInv shared s) {t : Nat} {st : TStmt} {r : Nat}
    {o : HObj} {k : Unit → HProg TOut} (hr : (s.thread t).run = some (st, .write r o k)) :
    shared.length ≤ r ∧ ({ s with shared := s.shared.set r o } : MState) = s := by
  have ht := hi.2 t
  rw [ThreadOk, hr] at ht
  obtain ⟨h1, h2, h3⟩ := ht
  obtain ⟨h4, _⟩ := busy_write h1 h2 h3
  refine ⟨h4, ?_⟩
  rw [List.set_eq_of_length_le (by rw [hi.1]; exact h4)]

/-- One step: the invariant stays, no thread loses a matrix, and what the matrices stand for stays. -/
theorem mstep_inv {shared : Heap} {s s' : MState} {e : Option MEvent} (hi : MInv shared s)
    (hs : MStep s e s') : MInv shared s' ∧ ∀ t, ∀ m ∈ (s.thread t).mats,
      m ∈ (s'.thread t).mats ∧ viewMat (s'.heap t) m = viewMat (s.heap t) m := by
  have frame : ∀ (t : Nat) (x : MThread), ThreadOk shared x →
      (∀ m ∈ (s.thread t).mats, m ∈ x.mats ∧
        viewMat (s.shared ++ x.own) m = viewMat (s.heap t) m) →
      MInv shared (s.set t x) ∧ ∀ t', ∀ m ∈ (s.thread t').mats,
        m ∈ ((s.set t x).thread t').mats ∧
        viewMat ((s.set t x).heap t') m = viewMat (s.heap t') m := by
    intro t x hx hm
    refine ⟨minv_set hi t hx, fun t' m hm' => ?_⟩
    by_cases h : t' = t
    · subst h
      simpa [heap_set, thread_set] using hm m hm'
    · simpa [heap_set, thread_set, h] using hm'
  have hsh := hi.1
  cases hs with
  | start t st hr hd =>
    have ht := (hi.2 t).1
    exact frame t _ ⟨ht, hd, busy_begin ht (by simp) st⟩ fun m hm => ⟨hm, rfl⟩
  | alloc t st o k hr =>
    have ht := hi.2 t
    rw [ThreadOk, hr] at ht
    obtain ⟨h1, h2, h3⟩ := ht
    have e : shared ++ ((s.thread t).own ++ [o]) = (shared ++ (s.thread t).own) ++ [o] := by simp
    refine frame t _ ⟨?_, ?_⟩ ?_
    · dsimp only
      rw [e]
      exact h1.prefix (List.prefix_append _ _)
    · dsimp only
      rw [e]
      refine ⟨h2, ?_⟩
      have h4 := busy_alloc h3
      rw [MState.heap, hsh]
      exact h4
    · intro m hm
      refine ⟨hm, ?_⟩
      dsimp only
      obtain ⟨A, h4, _⟩ := h1.mats m hm
      rw [MState.heap, hsh, e, h4]
      exact viewMat_prefix (List.prefix_append _ _) h4
  | look t st r k hr =>
    have ht := hi.2 t
    rw [ThreadOk, hr] at ht
    obtain ⟨h1, h2, h3⟩ := ht
    refine frame t _ ⟨h1, h2, ?_⟩ fun m hm => ⟨hm, rfl⟩
    have h4 := busy_look h3
    rw [MState.heap, hsh]
    exact h4
  | write t st r o k hr =>
    obtain ⟨hM, hsame⟩ := write_own hi hr
    have ht := hi.2 t
    rw [ThreadOk, hr] at ht
    obtain ⟨h1, h2, h3⟩ := ht
    obtain ⟨_, h4, h5, h6⟩ := busy_write h1 h2 h3
    rw [hsame, hsh, if_neg (by omega)]
    refine frame t _ ⟨?_, ?_⟩ ?_
    · dsimp only
      rw [set_own _ _ hM]
      exact h4
    · dsimp only
      rw [set_own _ _ hM]
      exact ⟨h2, h5⟩
    · intro m hm
      refine ⟨hm, ?_⟩
      dsimp only
      rw [MState.heap, hsh, set_own _ _ hM]
      exact h6 m hm
  | done t st out hr =>
    have ht := hi.2 t
    rw [ThreadOk, hr] at ht
    obtain ⟨h1, h2, h3⟩ := ht
    have h4 := (busy_ends (res := .ok out) h1 h2 h3).2 out rfl
    have hown : ((s.thread t).gets out).own = (s.thread t).own := by
      cases out with
      | cell c => cases c <;> rfl
      | _ => rfl
    have hrun : ((s.thread t).gets out).run = none := by
      cases out with
      | cell c => cases c <;> rfl
      | _ => rfl
    have hsub : ∀ m ∈ (s.thread t).mats, m ∈ ((s.thread t).gets out).mats := by
      intro m hm
      cases out with
      | cell c => cases c <;> exact hm
      | mat m' => exact List.mem_cons_of_mem _ hm
      | _ => exact hm
    refine frame t _ ⟨?_, ?_⟩ ?_
    · rw [hown]
      exact h4
    · rw [hrun]
      trivial
    · intro m hm
      refine ⟨hsub m hm, ?_⟩
      rw [hown]
      rfl
  | fails t st err hr => exact frame t _ ⟨(hi.2 t).1, trivial⟩ fun m hm => ⟨hm, rfl⟩
  | interrupt t hr => exact frame t _ ⟨(hi.2 t).1, trivial⟩ fun m hm => ⟨hm, rfl⟩

theorem mrun_inv {shared : Heap} {s s' : MState} (hi : MInv shared s) (hs : MRun s s') :
    MInv shared s' ∧ ∀ t, ∀ m ∈ (s.thread t).mats,
      m ∈ (s'.thread t).mats ∧ viewMat (s'.heap t) m = viewMat (s.heap t) m := by
  induction hs with
  | refl => exact ⟨hi, fun t m hm => ⟨hm, rfl⟩⟩
  | step _ hst ih =>
    obtain ⟨h1, h2⟩ := ih
    obtain ⟨h3, h4⟩ := mstep_inv h1 hst
    exact ⟨h3, fun t m hm => ⟨(h4 t m (h2 t m hm).1).1, (h4 t m (h2 t m hm).1).2.trans (h2 t m hm).2⟩⟩

theorem minv_begin {s : HState} (h : HRun HState.start s) :
    MInv s.heap (MState.begin s.heap s.mats) := by
  refine ⟨rfl, fun t => ⟨⟨?_, fun _ => False, by simp [MState.begin], by simp⟩, trivial⟩⟩
  intro m hm
  obtain ⟨A, h1, h2⟩ := (hrun_inv hinv_start h).1.mats m hm
  exact ⟨A, by simpa [MState.begin] using h1, h2⟩

theorem mreach_inv {s : MState} (h : MReach s) : ∃ shared, MInv shared s := by
  obtain ⟨s0, h1, h2⟩ := h
  exact ⟨s0.heap, (mrun_inv (minv_begin h1) h2).1⟩

/-- `rows = [[x, 0], [0, 2]]; M = Matrix(rows)`, and then the threads. -/
theorem sample_reach :
    HRun HState.start ⟨(HMat.new (.ref 2) sampleHeap).2, [sampleHMat], [2, 1, 0]⟩ := by
  let s1 : HState := ⟨[.list [.obj (.expr x), .obj (.int 0)]], [], [0]⟩
  let s2 : HState := ⟨s1.heap ++ [.list [.obj (.int 0), .obj (.int 2)]], [], [1, 0]⟩
  let s3 : HState := ⟨sampleHeap, [], [2, 1, 0]⟩
  have k : ∀ (s : HState) (o : PyObj), s.Knows (.obj o) := fun s o r hr => by cases hr
  have r1 : HStep HState.start s1 := .list _ _ (by
    intro c hc
    simp only [List.mem_cons, List.not_mem_nil, or_false] at hc
    rcases hc with rfl | rfl <;> exact k _ _)
  have r2 : HStep s1 s2 := .list _ _ (by
    intro c hc
    simp only [List.mem_cons, List.not_mem_nil, or_false] at hc
    rcases hc with rfl | rfl <;> exact k _ _)
  have r3 : HStep s2 s3 := .list _ [.ref 0, .ref 1] (by
    intro c hc r hr
    subst hr
    simp only [List.mem_cons, Cell.ref.injEq, List.not_mem_nil, or_false] at hc
    rcases hc with rfl | rfl <;> simp [s2])
  have r4 : HStep s3 ⟨(HMat.new (.ref 2) sampleHeap).2, [sampleHMat], [2, 1, 0]⟩ :=
    .new s3 (.ref 2) sampleHMat _ (by
      intro r hr
      cases hr
      simp [s3]) (by decide +kernel)
  exact .step (.step (.step (.step .refl r1) r2) r3) r4

/-- **C79, the shared objects.** However the steps of the threads are interleaved and wherever they are
interrupted, no list and no dict that was there when they were started changes, and to every thread the
matrices that were there stand for what they stood for. -/
theorem C79_shared (s0 : HState) (h0 : HRun HState.start s0) (s : MState)
    (h : MRun (MState.begin s0.heap s0.mats) s) :
    s.shared = s0.heap ∧ ∀ m ∈ s0.mats, ∃ A, viewMat s0.heap m = some A ∧ MatHistory A ∧
      ∀ t, m ∈ (s.thread t).mats ∧ viewMat (s.heap t) m = some A := by
  obtain ⟨h1, h2⟩ := mrun_inv (minv_begin h0) h
  refine ⟨h1.1, fun m hm => ?_⟩
  obtain ⟨A, h3, h4⟩ := (hrun_inv hinv_start h0).1.mats m hm
  refine ⟨A, h3, h4, fun t => ?_⟩
  obtain ⟨h5, h6⟩ := h2 t m hm
  refine ⟨h5, h6.trans ?_⟩
  simpa [MState.begin, MState.heap] using h3

/-- **C79, every matrix.** The same is true of the matrices that the threads make: from the moment a thread
has one it stands for the same value, whatever this and the other threads do. -/
theorem C79_immutable (s s' : MState) (h : MReach s) (h' : MRun s s') (t : Nat) (m : HMat)
    (hm : m ∈ (s.thread t).mats) :
    m ∈ (s'.thread t).mats ∧
    ∃ A, viewMat (s.heap t) m = some A ∧ viewMat (s'.heap t) m = some A ∧ MatHistory A := by
  obtain ⟨shared, hi⟩ := mreach_inv h
  obtain ⟨h1, h2⟩ := (mrun_inv hi h').2 t m hm
  obtain ⟨A, h3, h4⟩ := (hi.2 t).1.mats m hm
  rw [← hi.1] at h3
  exact ⟨h1, A, h3, h2.trans h3, h4⟩

/-- **C79, the results.** When a statement of a thread ends, with a result or an exception, this is what the
statement gives when nothing else runs. -/
theorem C79_results (s s' : MState) (h : MReach s) (t : Nat) (st : TStmt) (res : PyM TOut)
    (hs : MStep s (some (.ends t st res)) s') : Means (s'.heap t) st res := by
  obtain ⟨shared, hi⟩ := mreach_inv h
  cases hs with
  | done _ _ out hr =>
    have ht := hi.2 t
    rw [ThreadOk, hr] at ht
    obtain ⟨h1, h2, h3⟩ := ht
    have h4 := (busy_ends (res := .ok out) h1 h2 h3).1
    have hown : ((s.thread t).gets out).own = (s.thread t).own := by
      cases out with
      | cell c => cases c <;> rfl
      | _ => rfl
    rw [heap_set, if_pos rfl, hi.1, hown]
    exact h4
  | fails _ _ err hr =>
    have ht := hi.2 t
    rw [ThreadOk, hr] at ht
    obtain ⟨h1, h2, h3⟩ := ht
    rw [heap_set, if_pos rfl, hi.1]
    exact (busy_ends (res := .error err) h1 h2 h3).1

/-- **C79, the argument of the constructor.** While `Matrix(entries)` runs, `entries` stands for the same:
the result is the matrix of what `entries` was when the constructor was called. -/
theorem C79_arguments (s s' : MState) (h : MReach s) (e : Option MEvent) (hs : MStep s e s') (t : Nat)
    (c : Cell) (p : HProg TOut) (hr : (s.thread t).run = some (.new c, p)) :
    viewEntries (s'.heap t) c = viewEntries (s.heap t) c := by
  obtain ⟨shared, hi⟩ := mreach_inv h
  have hsh := hi.1
  have ht := hi.2 t
  rw [ThreadOk, hr] at ht
  obtain ⟨h1, h2, h0, h3, h4, h5, h6, h7⟩ := ht
  have key : ∀ h', h0 <+: h' → viewEntries h' c = viewEntries (s.heap t) c := fun h' hp => by
    rw [h3.viewEntries hp h2, MState.heap, hsh, h3.viewEntries h4 h2]
  cases hs with
  | start t' st hn hd =>
    rw [heap_set]
    split
    · rename_i h; subst h; rfl
    · rfl
  | alloc t' st o k hn =>
    rw [heap_set]
    split
    · rename_i h
      subst h
      refine key _ (h4.trans ?_)
      rw [hsh]
      simp
    · rfl
  | look t' st r k hn =>
    rw [heap_set]
    split
    · rename_i h; subst h; rfl
    · rfl
  | write t' st r o k hn =>
    obtain ⟨hM, hsame⟩ := write_own hi hn
    rw [hsame, hsh, if_neg (by omega), heap_set]
    split
    · rename_i h
      subst h
      rw [hr] at hn
      cases hn
      refine key _ ?_
      dsimp only
      rw [hsh, set_own _ _ hM]
      exact prefix_set h4 h6.1 o
    · rfl
  | done t' st out hn =>
    rw [heap_set]
    split
    · rename_i h
      subst h
      cases out with
      | cell c => cases c <;> rfl
      | _ => rfl
    · rfl
  | fails t' st err hn =>
    rw [heap_set]
    split
    · rename_i h; subst h; rfl
    · rfl
  | interrupt t' hn =>
    rw [heap_set]
    split
    · rename_i h; subst h; rfl
    · rfl

/-- **C79, nobody waits.** A running statement needs no other thread to come to its end: there is no lock. -/
theorem C79_finishes (s : MState) (t : Nat) (st : TStmt) (p : HProg TOut)
    (hr : (s.thread t).run = some (st, p)) :
    ∃ s' s'' res, MRun s s' ∧ MStep s' (some (.ends t st res)) s'' ∧
      ∀ t', t' ≠ t → s'.thread t' = s.thread t' ∧ s''.thread t' = s.thread t' := by
  have go : ∀ (p : HProg TOut) (s : MState), (s.thread t).run = some (st, p) →
      ∀ (s1 : MState), MRun s1 s → (∀ t', t' ≠ t → s.thread t' = s1.thread t') →
      ∃ s' s'' res, MRun s1 s' ∧ MStep s' (some (.ends t st res)) s'' ∧
        ∀ t', t' ≠ t → s'.thread t' = s1.thread t' ∧ s''.thread t' = s1.thread t' := by
    intro p
    induction p with
    | ret out =>
      intro s hr s1 h1 h2
      exact ⟨s, _, _, h1, .done s t st out hr, fun t' ht =>
        ⟨h2 t' ht, by rw [thread_set, if_neg ht]; exact h2 t' ht⟩⟩
    | raise e =>
      intro s hr s1 h1 h2
      exact ⟨s, _, _, h1, .fails s t st e hr, fun t' ht =>
        ⟨h2 t' ht, by rw [thread_set, if_neg ht]; exact h2 t' ht⟩⟩
    | alloc o k ih =>
      intro s hr s1 h1 h2
      exact ih _ _ (by rw [thread_set, if_pos rfl]) s1 (.step h1 (.alloc s t st o k hr))
        fun t' ht => by rw [thread_set, if_neg ht]; exact h2 t' ht
    | look r k ih =>
      intro s hr s1 h1 h2
      exact ih _ _ (by rw [thread_set, if_pos rfl]) s1 (.step h1 (.look s t st r k hr))
        fun t' ht => by rw [thread_set, if_neg ht]; exact h2 t' ht
    | write r o k ih =>
      intro s hr s1 h1 h2
      exact ih _ _ (by rw [thread_set, if_pos rfl]) s1 (.step h1 (.write s t st r o k hr))
        fun t' ht => by rw [thread_set, if_neg ht]; exact h2 t' ht
  exact go p s hr s .refl fun _ _ => rfl

theorem run_trans {s t u : MState} (h1 : MRun s t) (h2 : MRun t u) : MRun s u := by
  induction h2 with
  | refl => exact h1
  | step _ hst ih => exact .step ih hst

theorem reach_run {s s' : MState} (h : MReach s) (hs : MRun s s') : MReach s' := by
  obtain ⟨s0, h1, h2⟩ := h
  exact ⟨s0, h1, run_trans h2 hs⟩

/-- `M = Matrix([[x, 0], [0, 2]])`; thread 0 has begun with `M + M` and has copied the list of elements,
thread 1 has begun with `M.tolist()` and is interrupted, thread 0 goes on: its sum has the entry `2 + 2`. -/
example : ∃ s s' s'' res m, MReach s ∧ (s.thread 0).own.length = 1 ∧ (s.thread 1).run ≠ none ∧
    MRun (s.set 1 { s.thread 1 with run := none }) s' ∧
    MStep s' (some (.ends 0 (.binop sampleHMat sampleHMat addH) res)) s'' ∧ res = .ok (.mat m) ∧
    (m.getItem (.pair 1 1) (s''.heap 0)).1 = .ok (addH.call [integer 2, integer 2]) := by
  let h := (HMat.new (.ref 2) sampleHeap).2
  let st0 : TStmt := .binop sampleHMat sampleHMat addH
  let st1 : TStmt := .tolist sampleHMat
  let s1 := MState.begin h [sampleHMat]
  have z : MReach s1 := ⟨_, sample_reach, .refl⟩
  have z1 : MRun s1 s1 := .refl
  let s2 := s1.set 0 { s1.thread 0 with run := some (st0, st0.prog) }
  have z2 : MRun s1 s2 := .step z1 (.start s1 0 st0 rfl
    ⟨List.mem_singleton.2 rfl, List.mem_singleton.2 rfl⟩)
  obtain ⟨k, hk⟩ : ∃ k, st0.prog = .look 5 k := ⟨_, rfl⟩
  let s3 := s2.set 0 { s2.thread 0 with run := some (st0, k (s2.heap 0)[5]?) }
  have z3 : MRun s1 s3 := .step z2 (.look s2 0 st0 5 k (by rw [← hk]; rfl))
  have h5 : (s2.heap 0)[5]? = some (.list [.obj (.expr x), .obj (.expr (integer 2))]) := by
    change (h ++ [])[5]? = _
    decide +kernel
  obtain ⟨o, k', hk'⟩ : ∃ o k', k (some (.list [.obj (.expr x), .obj (.expr (integer 2))])) = .alloc o k' := by
    cases hk
    exact ⟨_, _, rfl⟩
  let s4 := s3.set 0 { s3.thread 0 with
    own := (s3.thread 0).own ++ [o], run := some (st0, k' (s3.heap 0).length) }
  have z4 : MRun s1 s4 := .step z3 (.alloc s3 0 st0 o k' (by
    change some (st0, k (s2.heap 0)[5]?) = _
    rw [h5, hk']))
  let s5 := s4.set 1 { s4.thread 1 with run := some (st1, st1.prog) }
  have z5 : MRun s1 s5 := .step z4 (.start s4 1 st1 rfl (List.mem_singleton.2 rfl))
  let s6 := s5.set 1 { s5.thread 1 with run := none }
  have z6 : MRun s1 s6 := .step z5 (.interrupt s5 1 (by intro hc; cases hc))
  obtain ⟨s', s'', res, h7, h8, _⟩ := C79_finishes s6 0 st0 _ rfl
  have z7 : MRun s1 s' := run_trans z6 h7
  obtain ⟨A, B, h9, h10, h11⟩ := C79_results s' s'' (reach_run z z7) 0 st0 res h8
  have hv : viewMat h sampleHMat = some (Mat.mk' 2 2 [x, integer 2] ⟨[((0, 0), 0), ((1, 1), 1)]⟩) := by
    decide +kernel
  obtain ⟨_, A', h12, h13, _⟩ := C79_immutable s1 s'' z (.step z7 h8) 0 sampleHMat
    (List.mem_singleton.2 rfl)
  have e : s1.heap 0 = h := List.append_nil _
  rw [e, hv] at h12
  cases h12
  cases h9.symm.trans h13
  cases h10.symm.trans h13
  have hb : ∃ C, (Mat.mk' 2 2 [x, integer 2] ⟨[((0, 0), 0), ((1, 1), 1)]⟩).binop
      (Mat.mk' 2 2 [x, integer 2] ⟨[((0, 0), 0), ((1, 1), 1)]⟩) addH = .ok C ∧
      C.getItem (.pair 1 1) = .ok (addH.call [integer 2, integer 2]) :=
    ⟨Mat.mk' 2 2 [addH.call [x, x], addH.call [integer 2, integer 2]] ⟨[((0, 0), 0), ((1, 1), 1)]⟩,
      by decide +kernel, by decide +kernel⟩
  obtain ⟨C, hC, hg⟩ := hb
  rw [hC] at h11
  obtain ⟨m, hm, hm'⟩ := h11
  refine ⟨s5, s', s'', res, m, reach_run z z5, rfl, (by intro hc; cases hc), h7, h8, hm, ?_⟩
  rw [C49_getitem _ m C _ hm']
  exact hg

end Verif.Props
