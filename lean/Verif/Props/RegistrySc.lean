import Verif.Proof.WeakCur
import Verif.Props.RegistryLive
import Verif.Model.TracePoint
/-
Property C88, for the category registry and the trace points: with their memory orders they have
every execution the interleaving model has.
-/
namespace Phosphor.RegConc.W
open Phosphor.Weak
variable {cat : Nat → Str} {w w' : St} {r r' : RegConc.St} {s s' : TpConc.St} {t : Nat}

/-- The latest values of the registry in `w` are the values of `r`. -/
structure NowR (w : St) (r : RegConc.St) : Prop where
  count : w.mem.Cur .count r.count
  status : ∀ i, w.mem.Cur (.status i) (num (r.statuses i))
  groups : w.groups = r.groups
  enabled : w.enabled = r.enabled
  disabled : w.disabled = r.disabled
  mutex : w.mutex = r.mutex
  results : w.results = r.results

/-- The position of a thread in a trace point and in the registry. -/
def both : TpConc.Pc → RegConc.Pc → Pc
  | .out, .idle => .idle
  | .out, q => .reg q none
  | .looking p, q => .reg q (some p)
  | .storing p i, _ => .storing p i
  | .testing p i, _ => .testing p i

/-- A null pointer, or the address of a cell. -/
def addr : Option Nat → Nat
  | none => 0
  | some i => i + 1

/-- The latest values in `w` are the values of `s`. -/
structure Now (w : St) (s : TpConc.St) : Prop where
  reg : NowR w s.reg
  ptr : ∀ p, w.mem.Cur (.ptr p) (addr (s.cache p))
  pc : ∀ t, w.pc t = both (s.pc t) (s.reg.pc t)
  inside : ∀ t p, s.pc t = .looking p → s.reg.pc t ≠ .idle
  outside : ∀ t p i, s.pc t = .storing p i ∨ s.pc t = .testing p i → s.reg.pc t = .idle
  tested : w.tested.map (fun x => (x.2.1, x.2.2)) = s.tested.map (fun x => (x.1, x.2.2))

theorem NowR.keep (h : NowR w r) {μ : Mem Loc Nat Plain} (t : Nat) (q : Pc) (q' : RegConc.Pc)
    (e : μ.hist = w.mem.hist) :
    NowR (w.goto t q μ) (r.goto t q') :=
  ⟨h.count.keep e, fun i => (h.status i).keep e, h.groups, h.enabled, h.disabled, h.mutex, h.results⟩

/-- What a step of the registry by thread `t` does to its position. -/
def After (tp : Option Nat) (r r' : RegConc.St) (t : Nat) (q : Pc) : Prop :=
  (r'.pc t ≠ .idle ∧ r'.results = r.results ∧ q = .reg (r'.pc t) tp) ∨
  (r'.pc t = .idle ∧ ∃ n i, r'.results = (n, i) :: r.results ∧ q = ret tp i) ∨
  (r'.pc t = .idle ∧ r'.results = r.results ∧ q = .idle)

theorem NowR.status_set {μ : Mem Loc Nat Plain} {i ts : Nat} {b : Bool} {m : Msg Loc Nat} (h : NowR w r)
    (hl : ∀ ts', ts < ts' → w.mem.hist (.status i) ts' = none) (hm : m.val = num b)
    (e : μ.hist = fun k j => if k = .status i ∧ j = ts + 1 then some m else w.mem.hist k j) (j : Nat) :
    μ.Cur (.status j) (num (upd r.statuses i b j)) := by
  by_cases hj : j = i
  · subst hj; rw [upd_self]; exact Mem.Cur.new hl e hm
  · rw [upd_ne _ _ hj]; exact (h.status j).away (by simpa using hj) e

/-- A step of the registry. -/
theorem NowR.step (h : NowR w r) (hw : w.mem.Wf) (hs : RegConc.Step r r') :
    ∃ t, (∀ u, u ≠ t → r'.pc u = r.pc u) ∧ r'.pc t ≠ r.pc t ∧
      ∀ tp, (r.pc t = .idle → w.pc t = .idle ∧ tp = none) → (r.pc t ≠ .idle → w.pc t = .reg (r.pc t) tp) →
      ∃ w' q, Step cat w w' ∧ NowR w' r' ∧ w'.pc = setf w.pc t q ∧ After tp r r' t q ∧
        w'.tested = w.tested ∧ ∀ p v, w.mem.Cur (.ptr p) v → w'.mem.Cur (.ptr p) v := by
  have away : ∀ {t q}, ∀ u, u ≠ t → (r.goto t q).pc u = r.pc u := fun u hu => upd_ne _ _ hu
  have own : ∀ {t q}, (r.goto t q).pc t = q := upd_self _ _ _
  cases hs with
  | @call t n hp hn =>
    refine ⟨t, away, by rw [own, hp]; simp, fun tp hi _ => ?_⟩
    obtain ⟨ts, m, hr, hv, -⟩ := h.count.get hw t
    obtain ⟨hj, rfl⟩ := hi hp
    rw [← hv]
    exact ⟨_, _, .call hj hn hr, h.keep _ _ _ (by rfl), rfl, Or.inl ⟨by rw [own]; simp, rfl, by rw [own]⟩, rfl,
      fun p v hc => hc.keep rfl⟩
  | @scan1End t n c i hp hi =>
    refine ⟨t, away, by rw [own, hp]; simp, fun tp _ hq => ?_⟩
    have hq := hq (by rw [hp]; simp); rw [hp] at hq
    exact ⟨_, _, .scan1End hq hi, h.keep _ _ _ (by rfl), rfl, Or.inl ⟨by rw [own]; simp, rfl, by rw [own]⟩, rfl,
      fun p v hc => hc.keep rfl⟩
  | @scan1Hit t n c i hp hi hg =>
    refine ⟨t, away, by show (r.goto t _).pc t ≠ _; rw [own, hp]; simp, fun tp _ hq => ?_⟩
    have hq := hq (by rw [hp]; simp); rw [hp] at hq
    refine ⟨_, _, .scan1Hit hq hi (by rw [h.groups]; exact hg), ?_, rfl, Or.inr (Or.inl ⟨own, n, i, rfl, rfl⟩), rfl,
      fun p v hc => hc.keep rfl⟩
    exact ⟨h.count.keep rfl, fun i => (h.status i).keep rfl, h.groups, h.enabled, h.disabled, h.mutex,
      by simp [h.results]⟩
  | @scan1Miss t n c i hp hi hg =>
    refine ⟨t, away, by rw [own, hp]; simp, fun tp _ hq => ?_⟩
    have hq := hq (by rw [hp]; simp); rw [hp] at hq
    exact ⟨_, _, .scan1Miss hq hi (by rw [h.groups]; exact hg), h.keep _ _ _ (by rfl), rfl,
      Or.inl ⟨by rw [own]; simp, rfl, by rw [own]⟩, rfl, fun p v hc => hc.keep rfl⟩
  | @lock t n hp hm =>
    refine ⟨t, away, by show (r.goto t _).pc t ≠ _; rw [own, hp]; simp, fun tp _ hq => ?_⟩
    have hq := hq (by rw [hp]; simp); rw [hp] at hq
    refine ⟨_, _, .lock hq (by rw [h.mutex]; exact hm), ?_, rfl,
      Or.inl ⟨by show (r.goto t _).pc t ≠ _; rw [own]; simp, rfl, by show _ = Pc.reg ((r.goto t _).pc t) tp; rw [own]⟩, rfl, fun p v hc => hc.keep rfl⟩
    exact ⟨h.count.keep rfl, fun i => (h.status i).keep rfl, h.groups, h.enabled, h.disabled, rfl, h.results⟩
  | @load2 t n hp =>
    refine ⟨t, away, by rw [own, hp]; simp, fun tp _ hq => ?_⟩
    have hq := hq (by rw [hp]; simp); rw [hp] at hq
    obtain ⟨ts, m, hr, hv, -⟩ := h.count.get hw t
    rw [← hv]
    exact ⟨_, _, .load2 hq hr, h.keep _ _ _ (by rfl), rfl, Or.inl ⟨by rw [own]; simp, rfl, by rw [own]⟩, rfl,
      fun p v hc => hc.keep rfl⟩
  | @scan2Hit t n c i hp hi hg =>
    refine ⟨t, away, by rw [own, hp]; simp, fun tp _ hq => ?_⟩
    have hq := hq (by rw [hp]; simp); rw [hp] at hq
    exact ⟨_, _, .scan2Hit hq hi (by rw [h.groups]; exact hg), h.keep _ _ _ (by rfl), rfl,
      Or.inl ⟨by rw [own]; simp, rfl, by rw [own]⟩, rfl, fun p v hc => hc.keep rfl⟩
  | @scan2Miss t n c i hp hi hg =>
    refine ⟨t, away, by rw [own, hp]; simp, fun tp _ hq => ?_⟩
    have hq := hq (by rw [hp]; simp); rw [hp] at hq
    exact ⟨_, _, .scan2Miss hq hi (by rw [h.groups]; exact hg), h.keep _ _ _ (by rfl), rfl,
      Or.inl ⟨by rw [own]; simp, rfl, by rw [own]⟩, rfl, fun p v hc => hc.keep rfl⟩
  | @room t n c i hp hi hc =>
    refine ⟨t, away, by rw [own, hp]; simp, fun tp _ hq => ?_⟩
    have hq := hq (by rw [hp]; simp); rw [hp] at hq
    exact ⟨_, _, .room hq hi hc, h.keep _ _ _ (by rfl), rfl, Or.inl ⟨by rw [own]; simp, rfl, by rw [own]⟩, rfl,
      fun p v hc => hc.keep rfl⟩
  | @full t n c i hp hi hc =>
    refine ⟨t, away, by rw [own, hp]; simp, fun tp _ hq => ?_⟩
    have hq := hq (by rw [hp]; simp); rw [hp] at hq
    exact ⟨_, _, .full hq hi hc, h.keep _ _ _ (by rfl), rfl, Or.inl ⟨by rw [own]; simp, rfl, by rw [own]⟩, rfl,
      fun p v hc => hc.keep rfl⟩
  | @writeGroup t n c hp =>
    refine ⟨t, away, by show (r.goto t _).pc t ≠ _; rw [own, hp]; simp, fun tp _ hq => ?_⟩
    have hq := hq (by rw [hp]; simp); rw [hp] at hq
    refine ⟨_, _, .writeGroup hq, ?_, rfl,
      Or.inl ⟨by show (r.goto t _).pc t ≠ _; rw [own]; simp, rfl, by show _ = Pc.reg ((r.goto t _).pc t) tp; rw [own]⟩, rfl, fun p v hc => hc.keep rfl⟩
    exact ⟨h.count.keep rfl, fun i => (h.status i).keep rfl, by rw [h.groups]; rfl, h.enabled, h.disabled, h.mutex,
      h.results⟩
  | @writeStatus t n c hp =>
    refine ⟨t, away, by show (r.goto t _).pc t ≠ _; rw [own, hp]; simp, fun tp _ hq => ?_⟩
    have hq := hq (by rw [hp]; simp); rw [hp] at hq
    obtain ⟨ts, m, -, -, -, hf, hl⟩ := (h.status c).get hw t
    refine ⟨_, _, .writeStatus hq hf, ?_, rfl,
      Or.inl ⟨by show (r.goto t _).pc t ≠ _; rw [own]; simp, rfl, by show _ = Pc.reg ((r.goto t _).pc t) tp; rw [own]⟩, rfl,
      fun p v hc => hc.away (by simp) rfl⟩
    exact ⟨h.count.away (by simp) rfl, h.status_set hl (by rw [h.groups, h.enabled, h.disabled]) rfl, h.groups,
      h.enabled, h.disabled, h.mutex, h.results⟩
  | @bump t n c hp =>
    refine ⟨t, away, by show (r.goto t _).pc t ≠ _; rw [own, hp]; simp, fun tp _ hq => ?_⟩
    have hq := hq (by rw [hp]; simp); rw [hp] at hq
    obtain ⟨ts, m, hr, hv, hn, hf, hl⟩ := h.count.get hw t
    refine ⟨_, _, .bump hq hr hn, ?_, rfl,
      Or.inl ⟨by show (r.goto t _).pc t ≠ _; rw [own]; simp, rfl, by show _ = Pc.reg ((r.goto t _).pc t) tp; rw [own]⟩, rfl,
      fun p v hc => hc.away (by simp) rfl⟩
    exact ⟨.new hl rfl (by rw [hv]), fun i => (h.status i).away (by simp) rfl, h.groups,
      h.enabled, h.disabled, h.mutex, h.results⟩
  | @ret t n i hp =>
    refine ⟨t, away, by show (r.goto t _).pc t ≠ _; rw [own, hp]; simp, fun tp _ hq => ?_⟩
    have hq := hq (by rw [hp]; simp); rw [hp] at hq
    refine ⟨_, _, .ret hq, ?_, rfl, Or.inr (Or.inl ⟨own, n, i, rfl, rfl⟩), rfl, fun p v hc => hc.keep rfl⟩
    exact ⟨h.count.keep rfl, fun i => (h.status i).keep rfl, h.groups, h.enabled, h.disabled, rfl, by simp [h.results]⟩
  | @callUpd t u hp =>
    refine ⟨t, away, by rw [own, hp]; simp, fun tp hi _ => ?_⟩
    obtain ⟨hj, rfl⟩ := hi hp
    exact ⟨_, _, .callUpd hj, h.keep _ _ _ (by rfl), rfl, Or.inl ⟨by rw [own]; simp, rfl, by rw [own]⟩, rfl,
      fun p v hc => hc.keep rfl⟩
  | @uLock t u hp hm =>
    refine ⟨t, away, by show (r.goto t _).pc t ≠ _; rw [own, hp]; simp, fun tp _ hq => ?_⟩
    have hq := hq (by rw [hp]; simp); rw [hp] at hq
    refine ⟨_, _, .uLock hq (by rw [h.mutex]; exact hm), ?_, rfl,
      Or.inl ⟨by show (r.goto t _).pc t ≠ _; rw [own]; simp, rfl, by show _ = Pc.reg ((r.goto t _).pc t) tp; rw [own]⟩, rfl, fun p v hc => hc.keep rfl⟩
    exact ⟨h.count.keep rfl, fun i => (h.status i).keep rfl, h.groups, h.enabled, h.disabled, rfl, h.results⟩
  | @uEn t u hp =>
    refine ⟨t, away, by show (r.goto t _).pc t ≠ _; rw [own, hp]; simp, fun tp _ hq => ?_⟩
    have hq := hq (by rw [hp]; simp); rw [hp] at hq
    refine ⟨_, _, .uEn hq, ?_, rfl,
      Or.inl ⟨by show (r.goto t _).pc t ≠ _; rw [own]; simp, rfl, by show _ = Pc.reg ((r.goto t _).pc t) tp; rw [own]⟩, rfl, fun p v hc => hc.keep rfl⟩
    exact ⟨h.count.keep rfl, fun i => (h.status i).keep rfl, h.groups, rfl, h.disabled, h.mutex, h.results⟩
  | @uDis t u hp =>
    refine ⟨t, away, by show (r.goto t _).pc t ≠ _; rw [own, hp]; simp, fun tp _ hq => ?_⟩
    have hq := hq (by rw [hp]; simp); rw [hp] at hq
    refine ⟨_, _, .uDis hq, ?_, rfl,
      Or.inl ⟨by show (r.goto t _).pc t ≠ _; rw [own]; simp, rfl, by show _ = Pc.reg ((r.goto t _).pc t) tp; rw [own]⟩, rfl, fun p v hc => hc.keep rfl⟩
    exact ⟨h.count.keep rfl, fun i => (h.status i).keep rfl, h.groups, h.enabled, rfl, h.mutex, h.results⟩
  | @uLoad t u hp =>
    refine ⟨t, away, by rw [own, hp]; simp, fun tp _ hq => ?_⟩
    have hq := hq (by rw [hp]; simp); rw [hp] at hq
    obtain ⟨ts, m, hr, hv, -⟩ := h.count.get hw t
    rw [← hv]
    exact ⟨_, _, .uLoad hq hr, h.keep _ _ _ (by rfl), rfl, Or.inl ⟨by rw [own]; simp, rfl, by rw [own]⟩, rfl,
      fun p v hc => hc.keep rfl⟩
  | @uStore t e d c i hp hi =>
    refine ⟨t, away, by show (r.goto t _).pc t ≠ _; rw [own, hp]; simp, fun tp _ hq => ?_⟩
    have hq := hq (by rw [hp]; simp); rw [hp] at hq
    obtain ⟨ts, m, -, -, -, hf, hl⟩ := (h.status i).get hw t
    refine ⟨_, _, .uStore hq hi hf, ?_, rfl,
      Or.inl ⟨by show (r.goto t _).pc t ≠ _; rw [own]; simp, rfl, by show _ = Pc.reg ((r.goto t _).pc t) tp; rw [own]⟩, rfl,
      fun p v hc => hc.away (by simp) rfl⟩
    exact ⟨h.count.away (by simp) rfl, h.status_set hl (by rw [h.groups, h.enabled, h.disabled]) rfl, h.groups,
      h.enabled, h.disabled, h.mutex, h.results⟩
  | @uClear t c i hp hi =>
    refine ⟨t, away, by show (r.goto t _).pc t ≠ _; rw [own, hp]; simp, fun tp _ hq => ?_⟩
    have hq := hq (by rw [hp]; simp); rw [hp] at hq
    obtain ⟨ts, m, -, -, -, hf, hl⟩ := (h.status i).get hw t
    refine ⟨_, _, .uClear hq hi hf, ?_, rfl,
      Or.inl ⟨by show (r.goto t _).pc t ≠ _; rw [own]; simp, rfl, by show _ = Pc.reg ((r.goto t _).pc t) tp; rw [own]⟩, rfl,
      fun p v hc => hc.away (by simp) rfl⟩
    exact ⟨h.count.away (by simp) rfl, h.status_set hl rfl rfl, h.groups,
      h.enabled, h.disabled, h.mutex, h.results⟩
  | @uRet t u c i hp hi =>
    refine ⟨t, away, by show (r.goto t _).pc t ≠ _; rw [own, hp]; simp, fun tp _ hq => ?_⟩
    have hq := hq (by rw [hp]; simp); rw [hp] at hq
    refine ⟨_, _, .uRet hq hi, ?_, rfl, Or.inr (Or.inr ⟨own, rfl, rfl⟩), rfl, fun p v hc => hc.keep rfl⟩
    exact ⟨h.count.keep rfl, fun i => (h.status i).keep rfl, h.groups, h.enabled, h.disabled, rfl, h.results⟩

theorem both_none {q : RegConc.Pc} (h : q ≠ .idle) : both .out q = .reg q none := by
  cases q <;> first | rfl | exact absurd rfl h

theorem setPc_self (f : Nat → TpConc.Pc) (t : Nat) (q : TpConc.Pc) : TpConc.setPc f t q t = q := by
  simp [TpConc.setPc]

theorem setPc_ne (f : Nat → TpConc.Pc) {t u : Nat} (q : TpConc.Pc) (h : u ≠ t) : TpConc.setPc f t q u = f u := by
  simp [TpConc.setPc, h]

/-- Every step of an interleaving is one step, or two, with the memory orders. -/
theorem Now.step (h : Now w s) (hw : Wfs w) (hn : ∀ p, '\x00' ∉ cat p) (hs : TpConc.Step cat s s') :
    ∃ w', Steps cat w w' ∧ Now w' s' := by
  cases hs with
  | @reg r' hr hk =>
    obtain ⟨t, hu, hm, H⟩ := h.reg.step (cat := cat) hw.mem hr
    obtain ⟨tp, h1, h2, h3⟩ : ∃ tp : Option Nat, (s.reg.pc t = .idle → w.pc t = .idle ∧ tp = none) ∧
        (s.reg.pc t ≠ .idle → w.pc t = .reg (s.reg.pc t) tp) ∧
        (s.pc t = .out ∧ tp = none ∨ ∃ p, s.pc t = .looking p ∧ tp = some p) := by
      have hp := h.pc t
      generalize e : s.pc t = a at hp
      cases a with
      | out =>
        refine ⟨none, fun hi => ⟨by rw [hp, hi]; rfl, rfl⟩, fun hi => ?_, Or.inl ⟨rfl, rfl⟩⟩
        rw [hp]; exact both_none hi
      | looking p =>
        exact ⟨some p, fun hi => absurd hi (h.inside t p e), fun _ => hp, Or.inr ⟨p, rfl, rfl⟩⟩
      | storing p i =>
        have hi := h.outside t p i (Or.inl e)
        exact absurd (((hk t (by rw [e]; simp)).1 hi).trans hi.symm) hm
      | testing p i =>
        have hi := h.outside t p i (Or.inr e)
        exact absurd (((hk t (by rw [e]; simp)).1 hi).trans hi.symm) hm
    obtain ⟨w', q, g1, g2, g3, g4, g5, g6⟩ := H tp h1 h2
    refine ⟨w', .step .refl g1, g2, fun p => g6 p _ (h.ptr p), fun u => ?_, fun u p hp => ?_,
      fun u p i hp => ?_, by rw [g5]; exact h.tested⟩
    · show w'.pc u = both (s.pc u) (r'.pc u)
      by_cases e : u = t
      · subst e
        rw [g3, setf_self]
        rcases h3 with ⟨e, rfl⟩ | ⟨p, e, rfl⟩
        · rw [e]
          rcases g4 with ⟨g, -, rfl⟩ | ⟨g, n, i, -, rfl⟩ | ⟨g, -, rfl⟩
          · exact (both_none g).symm
          · rw [g]; rfl
          · rw [g]; rfl
        · have g : r'.pc u ≠ .idle := fun hh => h.inside u p e ((hk u (by rw [e]; simp)).2 hh)
          rw [e]
          rcases g4 with ⟨-, -, rfl⟩ | ⟨g', -⟩ | ⟨g', -⟩
          · rfl
          · exact absurd g' g
          · exact absurd g' g
      · rw [g3, setf_ne _ _ e, h.pc u, hu u e]
    · exact fun hh => h.inside u p hp ((hk u (by show s.pc u ≠ _; rw [show s.pc u = _ from hp]; simp)).2 hh)
    · refine (hk u ?_).1 (h.outside u p i hp)
      rcases hp with hp | hp <;> · rw [show s.pc u = _ from hp]; simp
  | @enter t p i hp hi hc =>
    obtain ⟨ts, m, hr, hv, -⟩ := (h.ptr p).get hw.mem t
    rw [hc] at hv
    have hv : m.val = i + 1 := hv
    refine ⟨_, .step .refl (.enter (by rw [h.pc t, hp, hi]; rfl) hr (by omega)), ?_, fun q => (h.ptr q).keep rfl,
      fun u => ?_, fun u q hq => ?_, fun u q j hq => ?_, h.tested⟩
    · exact ⟨h.reg.count.keep rfl, fun i => (h.reg.status i).keep rfl, h.reg.groups, h.reg.enabled, h.reg.disabled,
        h.reg.mutex, h.reg.results⟩
    · show setf w.pc t _ u = both (TpConc.setPc s.pc t _ u) (s.reg.pc u)
      by_cases e : u = t
      · subst e; rw [setf_self, setPc_self, hv]; rfl
      · rw [setf_ne _ _ e, setPc_ne _ _ e]; exact h.pc u
    · have hq : TpConc.setPc s.pc t _ u = _ := hq
      by_cases e : u = t
      · subst e; rw [setPc_self] at hq; simp at hq
      · rw [setPc_ne _ _ e] at hq; exact h.inside u q hq
    · by_cases e : u = t
      · subst e; exact hi
      · simp only [setPc_ne _ _ e] at hq; exact h.outside u q j hq
  | @enterFirst t p r' hp hi hc hr' _ =>
    subst hr'
    obtain ⟨ts, m, hr, hv, -⟩ := (h.ptr p).get hw.mem t
    rw [hc] at hv
    have s1 : Step cat w _ := .enterFirst (by rw [h.pc t, hp, hi]; rfl) hr hv
    have c1 : (w.goto t (.look p) (w.mem.loadAcq t (.ptr p) ts m)).mem.Cur .count s.reg.count := h.reg.count.keep rfl
    obtain ⟨ts2, m2, hr2, hv2, -⟩ := c1.get (hw.step s1).mem t
    have s2 := Step.look (cat := cat) (w := w.goto t (.look p) (w.mem.loadAcq t (.ptr p) ts m)) (t := t) (p := p)
      (setf_self _ _ _) (hn p) hr2
    refine ⟨_, .step (.step .refl s1) s2, ?_, fun q => (h.ptr q).keep rfl,
      fun u => ?_, fun u q hq => ?_, fun u q j hq => ?_, h.tested⟩
    · exact ⟨h.reg.count.keep rfl, fun i => (h.reg.status i).keep rfl, h.reg.groups, h.reg.enabled, h.reg.disabled,
        h.reg.mutex, h.reg.results⟩
    · show setf (setf w.pc t _) t _ u = both (TpConc.setPc s.pc t _ u) (upd s.reg.pc t _ u)
      by_cases e : u = t
      · subst e; rw [setf_self, setPc_self, upd_self, hv2]; rfl
      · rw [setf_ne _ _ e, setf_ne _ _ e, setPc_ne _ _ e, upd_ne _ _ e]; exact h.pc u
    · show upd s.reg.pc t _ u ≠ _
      by_cases e : u = t
      · subst e; rw [upd_self]; simp
      · simp only [setPc_ne _ _ e] at hq
        rw [upd_ne _ _ e]; exact h.inside u q hq
    · show upd s.reg.pc t _ u = _
      by_cases e : u = t
      · subst e; simp only [setPc_self] at hq; simp at hq
      · simp only [setPc_ne _ _ e] at hq
        rw [upd_ne _ _ e]; exact h.outside u q j hq
  | @found t p i r' hp hi hd hres hr =>
    obtain ⟨t', hu, hm, H⟩ := h.reg.step (cat := cat) hw.mem hr
    obtain rfl : t' = t := Classical.byContradiction fun e => hi ((hu t (Ne.symm e)).symm.trans hd)
    obtain ⟨w', q, g1, g2, g3, g4, g5, g6⟩ := H (some p) (fun hh => absurd hh hi)
      (fun _ => by rw [h.pc, hp]; rfl)
    have hq : q = .storing p i := by
      rcases g4 with ⟨g, -⟩ | ⟨-, n, j, g, rfl⟩ | ⟨-, g, -⟩
      · exact absurd hd g
      · rw [hres] at g
        injection g with g
        injection g with _ g
        subst g; rfl
      · rw [hres] at g
        exact absurd (congrArg List.length g) (by simp)
    refine ⟨w', .step .refl g1, g2, fun p => g6 p _ (h.ptr p), fun u => ?_, fun u p hp => ?_,
      fun u p i hp => ?_, by rw [g5]; exact h.tested⟩
    · show w'.pc u = both (TpConc.setPc s.pc t' _ u) (r'.pc u)
      by_cases e : u = t'
      · subst e; rw [g3, setf_self, setPc_self, hq]; rfl
      · rw [g3, setf_ne _ _ e, setPc_ne _ _ e, hu u e]; exact h.pc u
    · show r'.pc u ≠ _
      by_cases e : u = t'
      · subst e; simp only [setPc_self] at hp; simp at hp
      · simp only [setPc_ne _ _ e] at hp
        rw [hu u e]; exact h.inside u p hp
    · show r'.pc u = _
      by_cases e : u = t'
      · subst e; exact hd
      · simp only [setPc_ne _ _ e] at hp
        rw [hu u e]; exact h.outside u p i hp
  | @store t p i hp =>
    obtain ⟨ts, m, -, -, -, hf, hl⟩ := (h.ptr p).get hw.mem t
    refine ⟨_, .step .refl (.store (by rw [h.pc t, hp]; rfl) hf), ?_, fun q => ?_,
      fun u => ?_, fun u q hq => ?_, fun u q j hq => ?_, h.tested⟩
    · exact ⟨h.reg.count.away (by simp) rfl, fun i => (h.reg.status i).away (by simp) rfl, h.reg.groups, h.reg.enabled,
        h.reg.disabled, h.reg.mutex, h.reg.results⟩
    · by_cases e : q = p
      · subst e
        show Mem.Cur _ _ (addr (if q = q then some i else s.cache q))
        rw [if_pos rfl]; exact .new hl rfl rfl
      · show Mem.Cur _ _ (addr (if q = p then some i else s.cache q))
        rw [if_neg e]; exact (h.ptr q).away (by simpa using e) rfl
    · show setf w.pc t _ u = both (TpConc.setPc s.pc t _ u) (s.reg.pc u)
      by_cases e : u = t
      · subst e; rw [setf_self, setPc_self]; rfl
      · rw [setf_ne _ _ e, setPc_ne _ _ e]; exact h.pc u
    · by_cases e : u = t
      · subst e; simp only [setPc_self] at hq; simp at hq
      · simp only [setPc_ne _ _ e] at hq; exact h.inside u q hq
    · by_cases e : u = t
      · subst e; exact h.outside u p i (Or.inl hp)
      · simp only [setPc_ne _ _ e] at hq; exact h.outside u q j hq
  | @test t p i hp =>
    obtain ⟨ts, m, hr, hv, -⟩ := (h.reg.status i).get hw.mem t
    refine ⟨_, .step .refl (.test (by rw [h.pc t, hp]; rfl) hr), ?_, fun q => (h.ptr q).keep rfl,
      fun u => ?_, fun u q hq => ?_, fun u q j hq => ?_, ?_⟩
    · exact ⟨h.reg.count.keep rfl, fun i => (h.reg.status i).keep rfl, h.reg.groups, h.reg.enabled, h.reg.disabled,
        h.reg.mutex, h.reg.results⟩
    · show setf w.pc t _ u = both (TpConc.setPc s.pc t _ u) (s.reg.pc u)
      by_cases e : u = t
      · subst e; rw [setf_self, setPc_self, h.outside u p i (Or.inr hp)]; rfl
      · rw [setf_ne _ _ e, setPc_ne _ _ e]; exact h.pc u
    · by_cases e : u = t
      · subst e; simp only [setPc_self] at hq; simp at hq
      · simp only [setPc_ne _ _ e] at hq; exact h.inside u q hq
    · by_cases e : u = t
      · subst e; simp only [setPc_self] at hq; simp at hq
      · simp only [setPc_ne _ _ e] at hq; exact h.outside u q j hq
    · show ((t, p, m.val != num false) :: w.tested).map _ = ((p, i, s.reg.statuses i) :: s.tested).map _
      rw [List.map_cons, List.map_cons, h.tested, hv]
      cases s.reg.statuses i <;> rfl

theorem Steps.reached {a b : St} (h : Steps cat a b) (ha : Reachable cat a) : Reachable cat b := by
  induction h with
  | refl => exact ha
  | step _ hs ih => exact ih.step hs

/-- Every interleaving is an execution with the memory orders. -/
theorem reached (hn : ∀ p, '\x00' ∉ cat p) (h : TpConc.Reachable cat s) : ∃ w, Reachable cat w ∧ Now w s := by
  induction h with
  | init =>
    refine ⟨_, .init, ⟨.init _, fun i => .init _, rfl, rfl, rfl, rfl, rfl⟩, fun p => .init _, fun t => rfl,
      fun t p hp => ?_, fun t p i hp => ?_, rfl⟩
    · cases hp
    · rfl
  | step _ hs ih =>
    obtain ⟨w, hw, h⟩ := ih
    obtain ⟨w', h1, h2⟩ := h.step hw.wfs hn hs
    exact ⟨w', h1.reached hw, h2⟩

/-- C88: every state that an interleaving of registry calls and trace points reaches is also reached
with the memory orders of the source: the same categories, configuration and owner of the mutex, the
same results of lookups, the same outcomes of trace points, every thread at the same place, and
every status and pointer with the same latest value, which any thread may read. -/
theorem C88_registry (hn : ∀ p, '\x00' ∉ cat p) (h : TpConc.Reachable cat s) : ∃ w, Reachable cat w ∧
    w.groups = s.reg.groups ∧ w.enabled = s.reg.enabled ∧ w.disabled = s.reg.disabled ∧
    w.mutex = s.reg.mutex ∧ w.results = s.reg.results ∧
    w.tested.map (fun x => (x.2.1, x.2.2)) = s.tested.map (fun x => (x.1, x.2.2)) ∧
    (∀ t, w.pc t = both (s.pc t) (s.reg.pc t)) ∧
    w.mem.Cur .count s.reg.count ∧ (∀ i, w.mem.Cur (.status i) (num (s.reg.statuses i))) ∧
    (∀ p, w.mem.Cur (.ptr p) (addr (s.cache p))) ∧
    ∀ t i, ∃ ts m, w.mem.readable t (.status i) ts m ∧ m.val = num (s.reg.statuses i) := by
  obtain ⟨w, hw, h⟩ := reached hn h
  refine ⟨w, hw, h.reg.groups, h.reg.enabled, h.reg.disabled, h.reg.mutex, h.reg.results, h.tested, h.pc, h.reg.count,
    h.reg.status, h.ptr, fun t i => ?_⟩
  obtain ⟨ts, m, hr, hv, -⟩ := (h.reg.status i).get hw.wfs.mem t
  exact ⟨ts, m, hr, hv⟩

/-- C88: a trace point that is about to test its category can see the latest status of it, however
stale what its thread has seen so far. -/
theorem C88_sees (h : Reachable cat w) {p i v : Nat} (hp : w.pc t = .testing p i) (hv : w.mem.Cur (.status i) v) :
    ∃ w', Step cat w w' ∧ w'.pc t = .idle ∧ w'.tested = (t, p, v != num false) :: w.tested := by
  obtain ⟨ts, m, hr, rfl, -⟩ := hv.get h.wfs.mem t
  exact ⟨_, .test hp hr, setf_self _ _ _, rfl⟩

/-- C88 is about something: a trace point of category "default" has found its cell, the first, and
its pointer is no longer null. -/
example : ∃ s : TpConc.St, TpConc.Reachable (fun _ => "default".toList) s ∧ s.cache 0 = some 0 ∧ s.pc 1 = .testing 0 0 ∧
    s.reg.results = [("default".toList, 0)] := by
  have hc : RegConc.Step RegConc.St.init _ := .call (t := 1) (n := "default".toList) rfl (by decide)
  have h1 : TpConc.Reachable (fun _ => "default".toList) _ :=
    .step .init (.enterFirst (t := 1) (p := 0) rfl rfl rfl rfl hc)
  have h2 : TpConc.Reachable (fun _ => "default".toList) _ :=
    h1.step (.found (t := 1) (p := 0) (i := 0) (by rfl)
      (by intro h; cases h) (by rfl) (by rfl)
      (.scan1Hit (t := 1) (by rfl) (by decide) (by rfl)))
  exact ⟨_, h2.step (.store (t := 1) (p := 0) (i := 0) (by rfl)), rfl, rfl, rfl⟩

end Phosphor.RegConc.W
