import Verif.Proof.CategoryRegistryConc
/-
The concurrent registry together with the configuration of the last finished update.
-/
namespace Phosphor.RegConc

/-- The update a thread is executing, from taking the mutex to releasing it. -/
def Pc.up : Pc → Option Upd
  | .uEn u | .uDis u | .uLoad u | .uLoop u _ _ => some u
  | _ => none

/-- Program counters at which the mutex is held. -/
def Pc.holds : Pc → Prop
  | .idle | .scan1 .. | .wantLock _ | .uWant _ => False
  | _ => True

/-- Executions with the lists of the last update that finished (empty lists at first). -/
inductive Hist : St → List Str × List Str → Prop
  | init : Hist St.init ([], [])
  | other {s s' c} : Hist s c → Step s s' →
      (∀ t u, (s.pc t).up = some u → (s'.pc t).up = some u) → Hist s' c
  | done {s s' c t u} : Hist s c → Step s s' → (s.pc t).up = some u → (s'.pc t).up = none →
      Hist s' (u.en, u.dis)

theorem Hist.reachable {s c} (h : Hist s c) : Reachable s := by
  induction h with
  | init => exact .init
  | other _ st _ ih => exact .step ih st
  | done _ st _ _ ih => exact .step ih st

/-- The cell holds the decision of a configuration. -/
def CellIs (s : St) (c : List Str × List Str) (i : Nat) : Prop :=
  s.statuses i = calculateEnabled (s.groups i) c.1 c.2

def UpOk (s : St) (c : List Str × List Str) : Pc → Prop
  | .uEn _ => s.enabled = c.1 ∧ s.disabled = c.2 ∧ ∀ i, i < s.count → CellIs s c i
  | .uDis _ => ∀ i, i < s.count → CellIs s c i
  | .uLoad _ => ∀ i, i < s.count → CellIs s c i
  | .uLoop u k i => k = s.count ∧ (∀ j, j < i → j < s.count → CellIs s (u.en, u.dis) j) ∧
      ∀ j, i ≤ j → j < s.count → CellIs s c j
  | _ => True

structure HInv (s : St) (c : List Str × List Str) : Prop where
  holder : ∀ t, s.mutex = some t → (s.pc t).holds
  owner : ∀ t, (s.pc t).holds → s.mutex = some t
  quiet : (∀ t, (s.pc t).up = none) → s.enabled = c.1 ∧ s.disabled = c.2
  upd : ∀ t, UpOk s c (s.pc t)

theorem Pc.up_holds {p : Pc} {u : Upd} (h : p.up = some u) : p.holds := by
  cases p <;> simp_all [Pc.up, Pc.holds]

theorem hinv_init : HInv St.init ([], []) where
  holder := by intro t h; cases h
  owner := by intro t h; cases h
  quiet := fun _ => ⟨rfl, rfl⟩
  upd := fun _ => trivial

theorem upOk_none {s : St} {c} {p : Pc} (h : p.up = none) : UpOk s c p := by
  cases p <;> first | trivial | cases h

/-- A step that only moves a thread between program counters outside updates. -/
theorem hinv_goto {s : St} {c} {t : Nat} {p : Pc} (h : HInv s c) (h0 : (s.pc t).up = none)
    (h1 : p.up = none) (h2 : p.holds ↔ (s.pc t).holds) : HInv (s.goto t p) c where
  holder := by
    intro u hu
    have := h.holder u hu
    by_cases e : u = t
    · subst e; simpa [St.goto, upd] using h2.mpr this
    · simpa [St.goto, upd, e] using this
  owner := by
    intro u hu
    by_cases e : u = t
    · subst e; exact h.owner u (h2.mp (by simpa [St.goto, upd] using hu))
    · exact h.owner u (by simpa [St.goto, upd, e] using hu)
  quiet := by
    intro hq
    apply h.quiet
    intro u
    by_cases e : u = t
    · subst e; exact h0
    · simpa [St.goto, upd, e] using hq u
  upd := by
    intro u
    by_cases e : u = t
    · subst e; apply upOk_none; simpa [St.goto, upd] using h1
    · have := h.upd u
      simp only [St.goto, upd, e, if_false]
      exact this

/-- The holder of the mutex excludes updates by other threads. -/
theorem HInv.alone {s c} (h : HInv s c) {t : Nat} (ht : (s.pc t).holds) (h0 : (s.pc t).up = none) :
    ∀ u, (s.pc u).up = none := by
  intro u
  cases hu : (s.pc u).up with
  | none => rfl
  | some x =>
    have h1 := h.owner u (Pc.up_holds hu)
    have h2 := h.owner t ht
    rw [h1] at h2
    have : u = t := Option.some.inj h2
    subst this
    rw [h0] at hu; cases hu

/-- Without an update, the cells follow `c`. -/
theorem HInv.cells {s c} (h : HInv s c) (inv : Inv s) (hq : ∀ t, (s.pc t).up = none) :
    ∀ i, i < s.count → CellIs s c i := by
  intro i hi
  obtain ⟨e1, e2⟩ := h.quiet hq
  have hall : AllOk s := by
    cases hm : s.mutex with
    | none => exact inv.free hm
    | some t =>
      have hh := h.holder t hm
      have hp := inv.pcs t
      have hu := hq t
      cases hpc : s.pc t <;> rw [hpc] at hh hp hu <;> simp only [Pc.holds, PcOk] at hh hp <;>
        first
          | (cases hu; done)
          | (cases hh; done)
          | exact hp.2.2
          | exact hp.2.2.1
          | exact hp.2.1
  have := hall i hi
  unfold CellOk at this
  unfold CellIs
  rw [← e1, ← e2]; exact this

/-- A step of the holder that leaves no update in progress afterwards or before. -/
theorem hinv_holder {s s' : St} {c} {t : Nat} (h : HInv s c) (ht : (s.pc t).holds)
    (h0 : (s.pc t).up = none) (hpc : ∀ u, u ≠ t → s'.pc u = s.pc u) (h1 : (s'.pc t).up = none)
    (he : s'.enabled = s.enabled) (hd : s'.disabled = s.disabled)
    (hm : (s'.pc t).holds ∧ s'.mutex = s.mutex ∨ ¬ (s'.pc t).holds ∧ s'.mutex = none) : HInv s' c := by
  have own := h.owner t ht
  have hq := h.alone ht h0
  have hne : ∀ u, u ≠ t → ¬ (s.pc u).holds := by
    intro u hu hh
    have := h.owner u hh
    rw [own] at this
    exact hu (Option.some.inj this).symm
  have hq' : ∀ u, (s'.pc u).up = none := by
    intro u
    by_cases e : u = t
    · subst e; exact h1
    · rw [hpc u e]; exact hq u
  refine ⟨?_, ?_, fun _ => by rw [he, hd]; exact h.quiet hq, fun u => upOk_none (hq' u)⟩
  · intro u hu
    rcases hm with ⟨a, b⟩ | ⟨a, b⟩
    · rw [b, own] at hu; cases hu; exact a
    · rw [b] at hu; cases hu
  · intro u hu
    by_cases e : u = t
    · subst e
      rcases hm with ⟨a, b⟩ | ⟨a, b⟩
      · rw [b]; exact own
      · exact absurd hu a
    · rw [hpc u e] at hu; exact absurd hu (hne u e)

/-- A step of the updating thread. -/
theorem hinv_up {s s' : St} {c} {t : Nat} (h : HInv s c) (ht : (s.pc t).holds)
    (hpc : ∀ u, u ≠ t → s'.pc u = s.pc u) (h1 : (s'.pc t).up ≠ none) (hm : s'.mutex = s.mutex)
    (hu : UpOk s' c (s'.pc t)) : HInv s' c := by
  have own := h.owner t ht
  have hne : ∀ u, u ≠ t → ¬ (s.pc u).holds := by
    intro u hu hh
    have := h.owner u hh
    rw [own] at this
    exact hu (Option.some.inj this).symm
  have hh' : (s'.pc t).holds := by
    cases hx : (s'.pc t).up with
    | none => exact absurd hx h1
    | some x => exact Pc.up_holds hx
  refine ⟨?_, ?_, fun hq => absurd (hq t) h1, ?_⟩
  · intro u hu
    rw [hm, own] at hu; cases hu; exact hh'
  · intro u hu
    by_cases e : u = t
    · subst e; rw [hm]; exact own
    · rw [hpc u e] at hu; exact absurd hu (hne u e)
  · intro u
    by_cases e : u = t
    · subst e; exact hu
    · rw [hpc u e]
      apply upOk_none
      cases hx : (s.pc u).up with
      | none => rfl
      | some x => exact absurd (Pc.up_holds hx) (hne u e)

theorem goto_ne {s : St} {t u : Nat} {p : Pc} (h : u ≠ t) : (s.goto t p).pc u = s.pc u := by
  simp [St.goto, upd, h]

theorem goto_self {s : St} {t : Nat} {p : Pc} : (s.goto t p).pc t = p := by
  simp [St.goto]

theorem calculateEnabled_disabled (g : Str) : calculateEnabled g [[]] [[]] = false := by
  cases h : calculateEnabled g [[]] [[]] with
  | false => rfl
  | true =>
    exfalso
    rw [calculateEnabled_iff] at h
    obtain ⟨x, _, ⟨p, hp, h1⟩, h2⟩ := h
    exact absurd (h2 p hp) (by simp [h1])

/-- The lists after a step: those of the update that finished in it, if any. -/
theorem hinv_step {s s' : St} {c} (h : HInv s c) (inv : Inv s) (st : Step s s') :
    (∀ t u, (s.pc t).up = some u → (s'.pc t).up = some u) ∧ HInv s' c ∨
    ∃ t u, (s.pc t).up = some u ∧ (s'.pc t).up = none ∧ HInv s' (u.en, u.dis) := by
  have keep : ∀ {t : Nat} {p : Pc}, (s.pc t).up = none →
      ∀ u x, (s.pc u).up = some x → ((s.goto t p).pc u).up = some x := by
    intro t p h0 u x hx
    by_cases e : u = t
    · subst e; rw [h0] at hx; cases hx
    · rw [goto_ne e]; exact hx
  have keep' : ∀ {t : Nat} {p : Pc} {y : Upd}, (s.pc t).up = some y → p.up = some y →
      ∀ u x, (s.pc u).up = some x → ((s.goto t p).pc u).up = some x := by
    intro t p y h0 h1 u x hx
    by_cases e : u = t
    · subst e; rw [h0] at hx; rw [goto_self]; exact h1.trans hx
    · rw [goto_ne e]; exact hx
  cases st with
  | call hp _ =>
    left; exact ⟨keep (by rw [hp]; rfl), hinv_goto h (by rw [hp]; rfl) rfl (by rw [hp]; rfl)⟩
  | scan1End hp _ =>
    left; exact ⟨keep (by rw [hp]; rfl), hinv_goto h (by rw [hp]; rfl) rfl (by rw [hp]; rfl)⟩
  | scan1Hit hp _ _ =>
    left
    have := hinv_goto (p := .idle) h (by rw [hp]; rfl) rfl (by rw [hp]; rfl)
    exact ⟨keep (by rw [hp]; rfl), ⟨this.holder, this.owner, this.quiet, this.upd⟩⟩
  | scan1Miss hp _ _ =>
    left; exact ⟨keep (by rw [hp]; rfl), hinv_goto h (by rw [hp]; rfl) rfl (by rw [hp]; rfl)⟩
  | @lock t n hp hm =>
    left
    refine ⟨keep (by rw [hp]; rfl), ?_⟩
    have hno : ∀ u, ¬ (s.pc u).holds := by
      intro u hu; have := h.owner u hu; rw [hm] at this; cases this
    have hq : ∀ u, (s.pc u).up = none := by
      intro u
      cases hx : (s.pc u).up with
      | none => rfl
      | some x => exact absurd (Pc.up_holds hx) (hno u)
    refine ⟨?_, ?_, fun _ => h.quiet hq, ?_⟩
    · intro u hu; cases hu
      show (((s.goto t _).pc t)).holds
      rw [goto_self]; trivial
    · intro u hu
      by_cases e : u = t
      · subst e; rfl
      · exact absurd (by simpa [goto_ne e] using hu) (hno u)
    · intro u
      apply upOk_none
      show ((s.goto t _).pc u).up = none
      by_cases e : u = t
      · subst e; rw [goto_self]; rfl
      · rw [goto_ne e]; exact hq u
  | load2 hp =>
    left; exact ⟨keep (by rw [hp]; rfl), hinv_goto h (by rw [hp]; rfl) rfl (by rw [hp]; rfl)⟩
  | scan2Hit hp _ _ =>
    left; exact ⟨keep (by rw [hp]; rfl), hinv_goto h (by rw [hp]; rfl) rfl (by rw [hp]; rfl)⟩
  | scan2Miss hp _ _ =>
    left; exact ⟨keep (by rw [hp]; rfl), hinv_goto h (by rw [hp]; rfl) rfl (by rw [hp]; rfl)⟩
  | room hp _ _ =>
    left; exact ⟨keep (by rw [hp]; rfl), hinv_goto h (by rw [hp]; rfl) rfl (by rw [hp]; rfl)⟩
  | full hp _ _ =>
    left; exact ⟨keep (by rw [hp]; rfl), hinv_goto h (by rw [hp]; rfl) rfl (by rw [hp]; rfl)⟩
  | @writeGroup t n k hp =>
    left
    exact ⟨keep (by rw [hp]; rfl), hinv_holder (t := t) h (by rw [hp]; trivial) (by rw [hp]; rfl)
      (fun u e => goto_ne e) (by show ((s.goto t _).pc t).up = none; rw [goto_self]; rfl) rfl rfl
      (.inl ⟨by show ((s.goto t _).pc t).holds; rw [goto_self]; trivial, rfl⟩)⟩
  | @writeStatus t n k hp =>
    left
    exact ⟨keep (by rw [hp]; rfl), hinv_holder (t := t) h (by rw [hp]; trivial) (by rw [hp]; rfl)
      (fun u e => goto_ne e) (by show ((s.goto t _).pc t).up = none; rw [goto_self]; rfl) rfl rfl
      (.inl ⟨by show ((s.goto t _).pc t).holds; rw [goto_self]; trivial, rfl⟩)⟩
  | @bump t n k hp =>
    left
    exact ⟨keep (by rw [hp]; rfl), hinv_holder (t := t) h (by rw [hp]; trivial) (by rw [hp]; rfl)
      (fun u e => goto_ne e) (by show ((s.goto t _).pc t).up = none; rw [goto_self]; rfl) rfl rfl
      (.inl ⟨by show ((s.goto t _).pc t).holds; rw [goto_self]; trivial, rfl⟩)⟩
  | @ret t n r hp =>
    left
    exact ⟨keep (by rw [hp]; rfl), hinv_holder (t := t) h (by rw [hp]; trivial) (by rw [hp]; rfl)
      (fun u e => goto_ne e) (by show ((s.goto t _).pc t).up = none; rw [goto_self]; rfl) rfl rfl
      (.inr ⟨by show ¬ ((s.goto t _).pc t).holds; rw [goto_self]; exact id, rfl⟩)⟩
  | callUpd hp =>
    left; exact ⟨keep (by rw [hp]; rfl), hinv_goto h (by rw [hp]; rfl) rfl (by rw [hp]; rfl)⟩
  | @uLock t u hp hm =>
    left
    refine ⟨keep (by rw [hp]; rfl), ?_⟩
    have hno : ∀ u, ¬ (s.pc u).holds := by
      intro u hu; have := h.owner u hu; rw [hm] at this; cases this
    have hq : ∀ u, (s.pc u).up = none := by
      intro u
      cases hx : (s.pc u).up with
      | none => rfl
      | some x => exact absurd (Pc.up_holds hx) (hno u)
    obtain ⟨e1, e2⟩ := h.quiet hq
    refine ⟨?_, ?_, fun _ => ⟨e1, e2⟩, ?_⟩
    · intro u hu; cases hu
      show (((s.goto t _).pc t)).holds
      rw [goto_self]; trivial
    · intro u hu
      by_cases e : u = t
      · subst e; rfl
      · exact absurd (by simpa [goto_ne e] using hu) (hno u)
    · intro v
      show UpOk _ c ((s.goto t _).pc v)
      by_cases e : v = t
      · subst e; rw [goto_self]; exact ⟨e1, e2, h.cells inv hq⟩
      · rw [goto_ne e]; exact upOk_none (hq v)
  | @uEn t u hp =>
    left
    have hk := h.upd t
    rw [hp] at hk
    refine ⟨keep' (by rw [hp]; rfl) rfl, hinv_up (t := t) h (by rw [hp]; trivial)
      (fun u e => goto_ne e) (by show ((s.goto t _).pc t).up ≠ none; rw [goto_self]; simp [Pc.up])
      rfl ?_⟩
    show UpOk _ c ((s.goto t _).pc t)
    rw [goto_self]; exact hk.2.2
  | @uDis t u hp =>
    left
    have hk := h.upd t
    rw [hp] at hk
    refine ⟨keep' (by rw [hp]; rfl) rfl, hinv_up (t := t) h (by rw [hp]; trivial)
      (fun u e => goto_ne e) (by show ((s.goto t _).pc t).up ≠ none; rw [goto_self]; simp [Pc.up])
      rfl ?_⟩
    show UpOk _ c ((s.goto t _).pc t)
    rw [goto_self]; exact hk
  | @uLoad t u hp =>
    left
    have hk := h.upd t
    rw [hp] at hk
    refine ⟨keep' (by rw [hp]; rfl) rfl, hinv_up (t := t) h (by rw [hp]; trivial)
      (fun u e => goto_ne e) (by show ((s.goto t _).pc t).up ≠ none; rw [goto_self]; simp [Pc.up])
      rfl ?_⟩
    show UpOk _ c ((s.goto t _).pc t)
    rw [goto_self]
    exact ⟨rfl, fun j hj => absurd hj (Nat.not_lt_zero _), fun j _ hj => hk j hj⟩
  | @uStore t e d k i hp hi =>
    left
    have hk := h.upd t
    have hp' := inv.pcs t
    rw [hp] at hk hp'
    refine ⟨keep' (by rw [hp]; rfl) rfl, hinv_up (t := t) h (by rw [hp]; trivial)
      (fun u e => goto_ne e) (by show ((s.goto t _).pc t).up ≠ none; rw [goto_self]; simp [Pc.up])
      rfl ?_⟩
    show UpOk _ c ((s.goto t _).pc t)
    rw [goto_self]
    refine ⟨hk.1, ?_, ?_⟩
    · intro j hj hjc
      by_cases e : j = i
      · subst e
        simp only [CellIs, upd_self]
        rw [hp'.2.1, hp'.2.2.1]; rfl
      · simp only [CellIs, upd_ne _ _ e]
        exact hk.2.1 j (by omega) hjc
    · intro j hj hjc
      simp only [CellIs, upd_ne _ _ (show j ≠ i by omega)]
      exact hk.2.2 j (by omega) hjc
  | @uClear t k i hp hi =>
    left
    have hk := h.upd t
    rw [hp] at hk
    refine ⟨keep' (by rw [hp]; rfl) rfl, hinv_up (t := t) h (by rw [hp]; trivial)
      (fun u e => goto_ne e) (by show ((s.goto t _).pc t).up ≠ none; rw [goto_self]; simp [Pc.up])
      rfl ?_⟩
    show UpOk _ c ((s.goto t _).pc t)
    rw [goto_self]
    refine ⟨hk.1, ?_, ?_⟩
    · intro j hj hjc
      by_cases e : j = i
      · subst e
        simp only [CellIs, upd_self]
        exact (calculateEnabled_disabled _).symm
      · simp only [CellIs, upd_ne _ _ e]
        exact hk.2.1 j (by omega) hjc
    · intro j hj hjc
      simp only [CellIs, upd_ne _ _ (show j ≠ i by omega)]
      exact hk.2.2 j (by omega) hjc
  | @uRet t u k i hp hi =>
    right
    have hp' := inv.pcs t
    rw [hp] at hp'
    have own := h.owner t (by rw [hp]; trivial)
    have hne : ∀ v, v ≠ t → ¬ (s.pc v).holds := by
      intro v hv hh
      have := h.owner v hh
      rw [own] at this
      exact hv (Option.some.inj this).symm
    refine ⟨t, u, by rw [hp]; rfl, by show ((s.goto t _).pc t).up = none; rw [goto_self]; rfl, ?_⟩
    refine ⟨(fun v hv => by cases hv), ?_, fun _ => ⟨hp'.2.1, hp'.2.2.1⟩, ?_⟩
    · intro v hv
      have hv : ((s.goto t .idle).pc v).holds := hv
      by_cases e : v = t
      · subst e; rw [goto_self] at hv; cases hv
      · rw [goto_ne e] at hv; exact absurd hv (hne v e)
    · intro v
      show UpOk _ _ ((s.goto t .idle).pc v)
      by_cases e : v = t
      · subst e; rw [goto_self]; trivial
      · rw [goto_ne e]
        apply upOk_none
        cases hx : (s.pc v).up with
        | none => rfl
        | some x => exact absurd (Pc.up_holds hx) (hne v e)

theorem hinv_other_unique {s s' : St} {c} (h : HInv s c) (inv : Inv s) (st : Step s s')
    (hk : ∀ t u, (s.pc t).up = some u → (s'.pc t).up = some u) : HInv s' c := by
  rcases hinv_step h inv st with ⟨_, h1⟩ | ⟨t, u, h1, h2, _⟩
  · exact h1
  · rw [hk t u h1] at h2; cases h2

theorem Hist.inv {s c} (h : Hist s c) : HInv s c := by
  induction h with
  | init => exact hinv_init
  | other h0 st hk ih => exact hinv_other_unique ih (inv_reachable h0.reachable) st hk
  | done h0 st h1 h2 ih =>
    rcases hinv_step ih (inv_reachable h0.reachable) st with ⟨hk, _⟩ | ⟨t', u', h3, h4, h5⟩
    · rw [hk _ _ h1] at h2; cases h2
    · have a := ih.owner _ (Pc.up_holds h1)
      have b := ih.owner _ (Pc.up_holds h3)
      rw [a] at b
      cases Option.some.inj b
      rw [h1] at h3; cases h3
      exact h5

/-- Every reachable state has such a history. -/
theorem Reachable.hist {s} (h : Reachable s) : ∃ c, Hist s c := by
  induction h with
  | init => exact ⟨_, .init⟩
  | step h0 st ih =>
    obtain ⟨c, hc⟩ := ih
    rcases hinv_step hc.inv (inv_reachable h0) st with ⟨hk, _⟩ | ⟨t, u, h1, h2, _⟩
    · exact ⟨c, .other hc st hk⟩
    · exact ⟨_, .done hc st h1 h2⟩

/-- A cell in use holds the decision of the last finished update, or of the update in
progress. -/
theorem Hist.cell {s c} (h : Hist s c) {i : Nat} (hi : i < s.count) :
    CellIs s c i ∨ ∃ t u, (s.pc t).up = some u ∧ CellIs s (u.en, u.dis) i := by
  have hinv := h.inv
  by_cases hq : ∀ t, (s.pc t).up = none
  · exact .inl (hinv.cells (inv_reachable h.reachable) hq i hi)
  · obtain ⟨t, ht⟩ := Classical.not_forall.mp hq
    have hk := hinv.upd t
    cases hpc : s.pc t with
    | uEn u => rw [hpc] at hk; exact .inl (hk.2.2 i hi)
    | uDis u => rw [hpc] at hk; exact .inl (hk i hi)
    | uLoad u => rw [hpc] at hk; exact .inl (hk i hi)
    | uLoop u k j =>
      rw [hpc] at hk
      by_cases hj : i < j
      · exact .inr ⟨t, u, by rw [hpc]; rfl, hk.2.1 i hj hi⟩
      · exact .inl (hk.2.2 i (by omega) hi)
    | _ => rw [hpc] at ht; exact absurd rfl ht

end Phosphor.RegConc
