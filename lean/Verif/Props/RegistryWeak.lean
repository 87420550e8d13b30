import Verif.Proof.RegistryWeakStep
/-
Property C64: the category registry and the trace points that cache its cells, with the memory
orders of the source, for any number of threads, any sequence of calls, and every execution of
the release/acquire memory model of Verif/Model/Weak.lean.
-/
namespace Phosphor.RegConc.W
open Phosphor.Weak
variable {cat : Nat → Str}

theorem Rel.quietMutex {w : St} {g : Ghost} (h : Rel cat w g) {t : Nat} (ho : w.mutex = some t) :
    (¬ w.mem.racyWrite t .en ∧ ¬ w.mem.racyWrite t .dis) ∧
    ∀ i, ¬ w.mem.racyRead t (.group i) := by
  have hf := (h.mview ho).2.2
  refine ⟨⟨?_, ?_⟩, ?_⟩
  · rintro ⟨u, hu | hu⟩
    · exact Nat.not_lt.2 (hf u).1.1 hu
    · exact Nat.not_lt.2 (hf u).1.2 hu
  · rintro ⟨u, hu | hu⟩
    · exact Nat.not_lt.2 (hf u).2.1.1 hu
    · exact Nat.not_lt.2 (hf u).2.1.2 hu
  · rintro i ⟨u, hu⟩
    exact Nat.not_lt.2 ((hf u).2.2.1 i) hu

theorem noRead {μ : Mem Loc Nat Plain} {t : Nat} {d : Plain} (h : ¬ μ.racyWrite t d) :
    ¬ μ.racyRead t d := fun ⟨u, hu⟩ => h ⟨u, .inl hu⟩

/-- C64: the lock-free scan never reads a group name that is being written. -/
theorem C64_scan_no_race {w : St} (h : Reachable cat w) {t : Nat} {n : Str} {c i : Nat}
    {tp : Option Nat} (hp : w.pc t = .reg (.scan1 n c i) tp) (hi : i < c) :
    ¬ w.mem.racyRead t (.group i) := by
  obtain ⟨g, hr⟩ := rel_reachable h
  have hpw := hr.pcs t; rw [hp] at hpw
  have h1 : c ≤ 3 + (w.mem.view t).ts .count := hpw.2
  rintro ⟨u, hu⟩
  exact Nat.not_lt.2 (((hr.vok t).2 i (by omega)).1 u) hu

/-- C64: nor does the scan under the mutex. -/
theorem C64_rescan_no_race {w : St} (h : Reachable cat w) {t : Nat} {n : Str} {c i : Nat}
    {tp : Option Nat} (hp : w.pc t = .reg (.scan2 n c i) tp) :
    ¬ w.mem.racyRead t (.group i) := by
  obtain ⟨g, hr⟩ := rel_reachable h
  exact (hr.quietMutex (hr.holder hp).2.1).2 i

/-- C64: the write of a new group name races with no earlier read or write of that cell, by
whatever thread. -/
theorem C64_write_no_race {w : St} (h : Reachable cat w) {t : Nat} {n : Str} {c : Nat}
    {tp : Option Nat} (hp : w.pc t = .reg (.writeGroup n c) tp) :
    ¬ w.mem.racyWrite t (.group c) := by
  obtain ⟨g, hr⟩ := rel_reachable h
  have hk := hr.holder hp
  have hc : c = 3 + g.ct := hk.2.2.2.1
  have hf := (hr.mview hk.2.1).2.2
  rintro ⟨u, hu | hu⟩
  · exact Nat.not_lt.2 ((hf u).2.2.1 c) hu
  · exact Nat.not_lt.2 ((hf u).2.2.2 c (by omega)) hu

/-- C64: the computation of a status reads the configuration and the group name without a race. -/
theorem C64_calculate_no_race {w : St} (h : Reachable cat w) {t i : Nat} {tp : Option Nat}
    (hp : (∃ n, w.pc t = .reg (.writeStatus n i) tp) ∨
      ∃ e d c, w.pc t = .reg (.uLoop (.update e d) c i) tp) :
    ¬ w.mem.racyRead t (.group i) ∧ ¬ w.mem.racyRead t .en ∧ ¬ w.mem.racyRead t .dis := by
  obtain ⟨g, hr⟩ := rel_reachable h
  have ho : w.mutex = some t := by
    rcases hp with ⟨n, hp⟩ | ⟨e, d, c, hp⟩
    · exact (hr.holder hp).2.1
    · exact (hr.holder hp).1
  have hq := hr.quietMutex ho
  exact ⟨hq.2 i, noRead hq.1.1, noRead hq.1.2⟩

/-- C64: a new configuration is written without a race. -/
theorem C64_configure_no_race {w : St} (h : Reachable cat w) {t : Nat} {u : Upd}
    {tp : Option Nat} :
    (w.pc t = .reg (.uEn u) tp → ¬ w.mem.racyWrite t .en) ∧
    (w.pc t = .reg (.uDis u) tp → ¬ w.mem.racyWrite t .dis) := by
  obtain ⟨g, hr⟩ := rel_reachable h
  exact ⟨fun hp => (hr.quietMutex (hr.holder hp)).1.1,
    fun hp => (hr.quietMutex (hr.holder hp).1).1.2⟩

/-- A cell that may be handed out for group `n`: the cell named `n`, or the overflow cell when all
250 cells are taken by other groups. -/
def Right (groups : Nat → Str) (n : Str) (i : Nat) : Prop :=
  (i < 250 ∧ groups i = n) ∨
  (i = 1 ∧ groups 1 = "category limit reached".toList ∧ (∀ j, j < 250 → groups j ≠ n) ∧
    ∀ j k, j < 250 → k < 250 → groups j = groups k → j = k)

theorem Rel.right {w : St} {g : Ghost} (h : Rel cat w g) {n : Str} {i : Nat}
    (hi : ResOk (sc w g) n i) : Right w.groups n i := by
  rcases hi with ⟨h1, h2⟩ | ⟨h1, h2, h3⟩
  · have h4 : (sc w g).count ≤ 250 := h.inv.chigh
    exact .inl ⟨by omega, h2⟩
  · exact .inr ⟨h1, h.inv.limit, h3, fun j k hj hk => h.inv.inj j k (by omega) (by omega)⟩

/-- C64: every finished lookup returned the right cell, and that cell still has that name now. -/
theorem C64_lookup {w : St} (h : Reachable cat w) {n : Str} {i : Nat} (hq : (n, i) ∈ w.results) :
    Right w.groups n i := by
  obtain ⟨g, hr⟩ := rel_reachable h
  exact hr.right (hr.inv.res _ hq)

/-- C64: all lookups of a group, by whatever threads, returned the same cell. -/
theorem C64_same {w : St} (h : Reachable cat w) {n : Str} {i j : Nat} (hi : (n, i) ∈ w.results)
    (hj : (n, j) ∈ w.results) : i = j := by
  obtain ⟨g, hr⟩ := rel_reachable h
  have hh := hr.inv.chigh
  rcases hr.inv.res _ hi with ⟨h1, h2⟩ | ⟨h1, h2, h3⟩ <;>
    rcases hr.inv.res _ hj with ⟨h4, h5⟩ | ⟨h4, h5, h6⟩
  · exact hr.inv.inj _ _ h1 h4 (by rw [h2, h5])
  · exact absurd h2 (h6 _ (by omega))
  · exact absurd h5 (h3 _ (by omega))
  · exact h1.trans h4.symm

/-- C64: lookups of different groups returned different cells, except for the overflow cell. -/
theorem C64_different {w : St} (h : Reachable cat w) {n n' : Str} {i : Nat}
    (hi : (n, i) ∈ w.results) (hj : (n', i) ∈ w.results) : n = n' ∨ i = 1 := by
  rcases C64_lookup h hi with ⟨_, h2⟩ | ⟨h2, _⟩
  · rcases C64_lookup h hj with ⟨_, h3⟩ | ⟨h3, _⟩
    · exact .inl (h2.symm.trans h3)
    · exact .inr h3
  · exact .inr h2

/-- C64: a trace point always tests the cell of its own category, whether it has just looked the
cell up or has loaded the pointer another thread has stored. -/
theorem C64_pointer {w : St} (h : Reachable cat w) {t p i : Nat} (hp : w.pc t = .testing p i) :
    Right w.groups (cat p) i := by
  obtain ⟨g, hr⟩ := rel_reachable h
  have hpw := hr.pcs t; rw [hp] at hpw
  exact hr.right hpw.2

/-- C64: whatever status a trace point may read was computed for the group in that cell, with a
configuration that has been installed; and a configuration whose installation the thread knows to
have finished (`v` is what was known then), or a later one. In particular the status of a new
cell is never read before it has been set. -/
theorem C64_status {w : St} (h : Reachable cat w) {t p i ts : Nat} {m : Msg Loc Nat}
    (hp : w.pc t = .testing p i) (hr : w.mem.readable t (.status i) ts m) :
    ∃ k c, w.confs[k]? = some c ∧ m.val = num (calculateEnabled (w.groups i) c.1 c.2) ∧
      ∀ k' v, w.fin k' = some v → (∀ l, v.ts l ≤ (w.mem.view t).ts l) → k' ≤ k := by
  obtain ⟨g, hR⟩ := rel_reachable h
  have hpw := hR.pcs t; rw [hp] at hpw
  have h1 := hpw.1
  have h2 := hR.vok t
  have h3 := (h2.2 i h1).2
  have h4 := hr.2
  have h5 := h2.1
  have hi : i < 3 + g.ct := by omega
  obtain ⟨c, hc, hv⟩ := hR.bornVal i ts m (.inl hi) hr.1 (by omega)
  refine ⟨_, c, hc, hv, fun k' v hk hl => ?_⟩
  rcases (hR.finOk k' v hk).2 i hi with h6 | ⟨ts', m', h6, h7, h8⟩
  · obtain ⟨m0, hm0⟩ := hR.ftMsg i hi
    exact Nat.le_trans h6 (hR.bornMono i _ _ _ _ hm0 hr.1 (by omega))
  · refine Nat.le_trans h8 (hR.bornMono i _ _ _ _ h6 hr.1 ?_)
    have := hl (.status i)
    omega

/-- C64: every decision a trace point makes, to log or not, is the one for its own category (or
the overflow group) under a configuration that has been installed, and not before one whose
installation the thread knows to have finished. -/
theorem C64_tested {w w' : St} (h : Reachable cat w) (hst : Step cat w w') :
    w'.tested = w.tested ∨ ∃ t p b i k c, w'.tested = (t, p, b) :: w.tested ∧
      Right w.groups (cat p) i ∧ w.confs[k]? = some c ∧
      b = calculateEnabled (w.groups i) c.1 c.2 ∧
      ∀ k' v, w.fin k' = some v → (∀ l, v.ts l ≤ (w.mem.view t).ts l) → k' ≤ k := by
  cases hst with
  | @test t p i ts m hp hr =>
    obtain ⟨k, c, hk, hv, hf⟩ := C64_status h hp hr
    refine .inr ⟨t, p, _, i, k, c, rfl, C64_pointer h hp, hk, ?_, hf⟩
    rw [hv]
    cases calculateEnabled (w.groups i) c.1 c.2 <;> rfl
  | _ => exact .inl rfl

/-- C64: a thread leaves the test of a trace point by making a decision. -/
theorem C64_decides {w w' : St} (hst : Step cat w w') {t p i : Nat}
    (hp : w.pc t = .testing p i) (hp' : w'.pc t ≠ .testing p i) :
    ∃ b, w'.tested = (t, p, b) :: w.tested := by
  have key : ∀ (s : Nat) (q : Pc), setf w.pc s q t ≠ .testing p i → s = t := by
    intro s q hq
    apply Classical.byContradiction; intro hne
    have hne' : t ≠ s := fun e => hne e.symm
    exact hq ((setf_ne _ _ hne').trans hp)
  cases hst with
  | @test s p' i' ts m h3 hr =>
    have e := key _ _ hp'; subst e
    rw [hp] at h3; cases h3
    exact ⟨_, rfl⟩
  | @other s => exact absurd hp hp'
  | @extLoad s => exact absurd hp hp'
  | @extStore s => exact absurd hp hp'
  | call h3 | enter h3 | enterFirst h3 | look h3 | scan1End h3 | scan1Hit h3 | scan1Miss h3
  | lock h3 | load2 h3 | scan2Hit h3 | scan2Miss h3 | room h3 | full h3 | writeGroup h3
  | writeStatus h3 | bump h3 | ret h3 | callUpd h3 | uLock h3 | uEn h3 | uDis h3 | uLoad h3
  | store h3 | uStore h3 | uClear h3 | uRet h3 =>
    have e := key _ _ hp'; subst e; rw [hp] at h3; cases h3

/-- C64: configurations are numbered in the order in which they were installed: what has been
installed stays, and so does what was known when the update finished. -/
theorem C64_configurations {w w' : St} (hst : Step cat w w') :
    (w'.confs = w.confs ∨ ∃ t u tp, w.pc t = .reg (.uDis u) tp ∧
      w'.confs = w.confs ++ [(u.en, u.dis)]) ∧
    (w'.fin = w.fin ∨ ∃ t u c i tp, w.pc t = .reg (.uLoop u c i) tp ∧ w'.pc t = .idle ∧
      w'.fin = setf w.fin (w.confs.length - 1) (some (w'.mem.view t))) := by
  cases hst with
  | @uDis t u tp hp => exact ⟨.inr ⟨t, u, tp, hp, rfl⟩, .inl rfl⟩
  | @uRet t u c i tp hp hi =>
    exact ⟨.inl rfl, .inr ⟨t, u, c, i, tp, hp, by simp [St.goto], rfl⟩⟩
  | _ => exact ⟨.inl rfl, .inl rfl⟩

/-- C64: when an update finishes, the newest configuration is the one it was called with. -/
theorem C64_finish {w w' : St} (h : Reachable cat w) (hst : Step cat w w') {t : Nat} {u : Upd}
    {c i : Nat} {tp : Option Nat} (hp : w.pc t = .reg (.uLoop u c i) tp) (hp' : w'.pc t = .idle) :
    w'.confs[w'.confs.length - 1]? = some (u.en, u.dis) ∧
    w'.fin (w'.confs.length - 1) = some (w'.mem.view t) := by
  obtain ⟨g, hr⟩ := rel_reachable h
  have hk := hr.holder hp
  have ho : w.mutex = some t := hk.1
  have hlast := hr.last (fun s x tp' hu => by
    have e : s = t := hr.inside ho hu (fun hq => hq.1)
    subst e; rw [hp] at hu; cases hu)
  have h1 : w.enabled = u.en := hk.2.1
  have h2 : w.disabled = u.dis := hk.2.2.1
  rw [h1, h2] at hlast
  have key : ∀ (s : Nat) (q : Pc), setf w.pc s q t = .idle → s = t := by
    intro s q hq
    apply Classical.byContradiction; intro hne
    have hne' : t ≠ s := fun e => hne e.symm
    rw [setf_ne _ _ hne', hp] at hq
    cases hq
  cases hst with
  | @uRet s u' c' i' tp' hp2 hi =>
    have e := key s _ hp'; subst e
    exact ⟨hlast, setf_self _ _ _⟩
  | @other s => have h0 : w.pc t = .idle := hp'; rw [hp] at h0; cases h0
  | @extLoad s => have h0 : w.pc t = .idle := hp'; rw [hp] at h0; cases h0
  | @extStore s => have h0 : w.pc t = .idle := hp'; rw [hp] at h0; cases h0
  | call h3 | enter h3 | enterFirst h3 | look h3 | scan1End h3 | scan1Hit h3 | scan1Miss h3
  | lock h3 | load2 h3 | scan2Hit h3 | scan2Miss h3 | room h3 | full h3 | writeGroup h3
  | writeStatus h3 | bump h3 | ret h3 | callUpd h3 | uLock h3 | uEn h3 | uDis h3 | uLoad h3
  | store h3 | test h3 => have e := key _ _ hp'; subst e; rw [hp] at h3; cases h3
  | uStore h3 | uClear h3 =>
    have e := key _ _ hp'; subst e
    simp [St.goto] at hp'

/-- Any number of steps. -/
inductive Steps (cat : Nat → Str) : St → St → Prop
  | refl {w} : Steps cat w w
  | step {a b c} : Steps cat a b → Step cat b c → Steps cat a c

theorem Steps.view {a b : St} (h : Steps cat a b) (u : Nat) : Le (a.mem.view u) (b.mem.view u) := by
  induction h with
  | refl => exact Le.refl _
  | step _ hst ih => exact ih.trans (view_step hst u)

theorem Steps.hist {a b : St} (h : Steps cat a b) {l : Loc} {ts : Nat} {m : Msg Loc Nat}
    (hm : a.mem.hist l ts = some m) : b.mem.hist l ts = some m := by
  induction h with
  | refl => exact hm
  | step _ hst ih => exact hist_step hst ih

/-- C64: what a thread knows it keeps, and passes on through any atomic: if `u` stores to an atomic
with release and `t` later loads that value with acquire, `t` knows what `u` knew. So a trace
point executed after a synchronisation with the thread that has finished an update obeys it
(`C64_status`). -/
theorem C64_synchronise {w0 w1 w2 w3 : St} {t u n ts val : Nat} {m : Msg Loc Nat}
    (h1 : w1 = { w0 with mem := w0.mem.storeRel u (.ext n) ts val })
    (hs : Steps cat w1 w2) (hr : w2.mem.readable t (.ext n) ts m)
    (h3 : w3 = { w2 with mem := w2.mem.loadAcq t (.ext n) ts m }) :
    m.val = val ∧ ∀ l, (w0.mem.view u).ts l ≤ (w3.mem.view t).ts l := by
  have hm : w1.mem.hist (.ext n) ts = some ⟨val, (w0.mem.view u).see (.ext n) ts⟩ := by
    rw [h1]; simp [Mem.storeRel, Mem.add]
  have hm2 := hs.hist hm
  have := hr.1
  rw [hm2] at this; cases this
  refine ⟨rfl, fun l => ?_⟩
  rw [h3]
  show _ ≤ (setf w2.mem.view t _ t).ts l
  rw [setf_self]
  have := (le_see (w0.mem.view u) (.ext n) ts).1 l
  exact Nat.le_trans this (Nat.le_max_right _ _)

/-- C64: and a thread keeps what it knew when its own update finished. -/
theorem C64_remembers {a b : St} (h : Steps cat a b) (t : Nat) (l : Loc) :
    (a.mem.view t).ts l ≤ (b.mem.view t).ts l := (h.view t).1 l

/-- Thread 0 installs "everything enabled" while thread 1 is about to test a trace point of
category "default" (cell 0). -/
theorem exStale : ∃ w : St, Reachable (fun _ => "default".toList) w ∧ w.pc 0 = .idle ∧
    w.pc 1 = .testing 0 0 ∧ w.fin 1 = some (w.mem.view 0) ∧
    w.confs = [([], []), (["*".toList], [])] ∧ w.groups 0 = "default".toList ∧
    w.mem.hist (.status 0) 0 = some ⟨0, View.bot⟩ ∧
    (∃ v, w.mem.hist (.status 0) 1 = some ⟨1, v⟩) ∧ (w.mem.view 0).ts (.status 0) = 1 ∧
    (w.mem.view 1).ts (.status 0) = 0 ∧ w.mem.hist (.ext 0) 1 = none ∧
    (w.mem.view 0).ts (.ext 0) = 0 ∧ (w.mem.view 1).ts (.ext 0) = 0 ∧ w.mutex = none ∧
    (∀ u, u ≠ 1 → w.pc u = .idle) ∧ w.enabled = ["*".toList] ∧ w.disabled = [] := by
  have hn : '\x00' ∉ "default".toList := by decide
  have r := Reachable.init (cat := fun _ => "default".toList)
  have r := r.step (.enterFirst (t := 1) (p := 0) (ts := 0) rfl ⟨rfl, Nat.le_refl _⟩ rfl)
  have r := r.step (.look (t := 1) (ts := 0) rfl hn ⟨rfl, Nat.le_refl _⟩)
  have r := r.step (.scan1Hit (t := 1) rfl (by decide) rfl)
  have r := r.step (.store (t := 1) (ts := 1) rfl ⟨rfl, by decide⟩)
  have r := r.step (.callUpd (t := 0) (u := .update ["*".toList] []) rfl)
  have r := r.step (.uLock (t := 0) rfl rfl)
  have r := r.step (.uEn (t := 0) rfl)
  have r := r.step (.uDis (t := 0) rfl)
  have r := r.step (.uLoad (t := 0) (ts := 0) rfl ⟨rfl, by decide⟩)
  have r := r.step (.uStore (t := 0) (ts := 1) rfl (by decide) ⟨rfl, by decide⟩)
  have r := r.step (.uStore (t := 0) (ts := 1) rfl (by decide) ⟨rfl, by decide⟩)
  have r := r.step (.uStore (t := 0) (ts := 1) rfl (by decide) ⟨rfl, by decide⟩)
  have r := r.step (.uRet (t := 0) rfl (by decide))
  refine ⟨_, r, rfl, rfl, rfl, rfl, rfl, rfl, ⟨_, rfl⟩, rfl, rfl, rfl, rfl, rfl, rfl, ?_, rfl, rfl⟩
  intro u hu
  by_cases e : u = 0
  · subst e; rfl
  · simp [St.goto, setf, hu, e, St.init]

/-- C64 refuted for a trace point that is not ordered after the update: an update has finished, the
category is enabled, and yet the trace point may still read the old status and skip its event. -/
theorem C64_refuted_stale : ∃ (w : St) (ts : Nat) (m : Msg Loc Nat),
    Reachable (fun _ => "default".toList) w ∧ w.pc 1 = .testing 0 0 ∧ w.mutex = none ∧
    (∀ u, u ≠ 1 → w.pc u = .idle) ∧ w.mem.readable 1 (.status 0) ts m ∧ m.val = 0 ∧
    calculateEnabled (w.groups 0) w.enabled w.disabled = true := by
  obtain ⟨w, r, _, h1, _, _, h2, h3, _, _, h4, _, _, _, h5, h6, h7, h8⟩ := exStale
  refine ⟨w, 0, _, r, h1, h5, h6, ⟨h3, by omega⟩, rfl, ?_⟩
  rw [h2, h7, h8]; decide +kernel

/-- The claims above are about something: after thread 1 has synchronised with thread 0 it can
only read that its category is enabled. -/
example : ∃ w : St, Reachable (fun _ => "default".toList) w ∧ w.pc 1 = .testing 0 0 ∧
    (∃ v, w.fin 1 = some v ∧ ∀ l, v.ts l ≤ (w.mem.view 1).ts l) ∧
    (∃ ts m, w.mem.readable 1 (.status 0) ts m) ∧
    ∀ ts m, w.mem.readable 1 (.status 0) ts m → m.val = 1 := by
  obtain ⟨w, r, _, h1, hfin, hc, h2, _, ⟨v, h3⟩, h3', h4, h5, h6, h7, _, _, _, _⟩ := exStale
  have r1 := r.step (.extStore (t := 0) (n := 0) (ts := 1) (v := 7) ⟨h5, by omega⟩)
  obtain ⟨m, hm⟩ : ∃ m, (w.mem.storeRel 0 (.ext 0) 1 7).readable 1 (.ext 0) 1 m :=
    ⟨⟨7, (w.mem.view 0).see (.ext 0) 1⟩, by simp [Mem.storeRel, Mem.add],
      by simp [Mem.storeRel, Mem.add, setf, h7]⟩
  have r2 := r1.step (.extLoad (t := 1) (n := 0) (ts := 1) hm)
  have hk := (C64_synchronise (cat := fun _ => "default".toList) rfl .refl hm rfl).2
  have hfull : ∃ v, w.fin 1 = some v ∧
      ∀ l, v.ts l ≤ (((w.mem.storeRel 0 (.ext 0) 1 7).loadAcq 1 (.ext 0) 1 m).view 1).ts l :=
    ⟨_, hfin, hk⟩
  refine ⟨_, r2, h1, hfull, ⟨1, ⟨1, v⟩, ?_, ?_⟩, ?_⟩
  · simp [Mem.loadAcq, Mem.storeRel, Mem.add, h3]
  · have hm1 := hm.1
    simp only [Mem.storeRel, Mem.add] at hm1
    simp at hm1
    subst hm1
    simp [Mem.loadAcq, Mem.storeRel, Mem.add, View.join, View.see, setf, h4, h3']
  · intro ts m' hr
    obtain ⟨k, c, hk1, hv, hk2⟩ := C64_status r2 h1 hr
    obtain ⟨v', hv', hl⟩ := hfull
    have hk3 : 1 ≤ k := hk2 1 v' hv' hl
    have hk1 : w.confs[k]? = some c := hk1
    rw [hc] at hk1
    have hk4 : k = 1 := by
      rcases List.getElem?_eq_some_iff.1 hk1 with ⟨h8, _⟩
      simp at h8; omega
    subst hk4
    cases hk1
    rw [hv]
    show num (calculateEnabled (w.groups 0) _ _) = 1
    rw [h2]; decide +kernel

/-- And: thread 0 has added group "abc" in cell 3, thread 1 is about to read that cell. -/
example : ∃ w : St, Reachable (fun _ => []) w ∧
    w.pc 1 = .reg (.scan1 "abc".toList 4 3) none ∧ w.mem.wr (.group 3) 0 = 7 ∧
    ("abc".toList, 3) ∈ w.results := by
  have hn : '\x00' ∉ "abc".toList := by decide
  have r := Reachable.init (cat := fun _ => [])
  have r := r.step (.call (t := 0) (ts := 0) rfl hn ⟨rfl, Nat.le_refl _⟩)
  have r := r.step (.scan1Miss (t := 0) rfl (by decide) (by decide))
  have r := r.step (.scan1Miss (t := 0) rfl (by decide) (by decide))
  have r := r.step (.scan1Miss (t := 0) rfl (by decide) (by decide))
  have r := r.step (.scan1End (t := 0) rfl (by decide))
  have r := r.step (.lock (t := 0) rfl rfl)
  have r := r.step (.load2 (t := 0) (ts := 0) rfl ⟨rfl, by decide⟩)
  have r := r.step (.scan2Miss (t := 0) rfl (by decide) (by decide))
  have r := r.step (.scan2Miss (t := 0) rfl (by decide) (by decide))
  have r := r.step (.scan2Miss (t := 0) rfl (by decide) (by decide))
  have r := r.step (.room (t := 0) rfl (by decide) (by decide))
  have r := r.step (.writeGroup (t := 0) rfl)
  have r := r.step (.writeStatus (t := 0) (ts := 1) rfl ⟨rfl, by decide⟩)
  have r := r.step (.bump (t := 0) (ts := 0) rfl ⟨rfl, by decide⟩ rfl)
  have r := r.step (.ret (t := 0) rfl)
  have r := r.step (.call (t := 1) (ts := 1) rfl hn ⟨rfl, by decide⟩)
  have r := r.step (.scan1Miss (t := 1) rfl (by decide) (by decide))
  have r := r.step (.scan1Miss (t := 1) rfl (by decide) (by decide))
  have r := r.step (.scan1Miss (t := 1) rfl (by decide) (by decide))
  exact ⟨_, r, rfl, rfl, List.mem_cons_self⟩

end Phosphor.RegConc.W
