import Verif.Model.ConfigObject
import Verif.Props.Config
/-
C71: configuration objects.
-/
namespace Phosphor.Cfg

/-! ### C71 A configuration always makes the buffers it reports -/

/-- The factory is the one of the mode. -/
def Agrees (c : Obj) : Prop :=
  match c.container.mode with
  | .fixed => c.container.factory = .makeFixed
  | .ring => c.container.factory = .makeRing
  | .custom => ∃ id, c.container.factory = .user id
  | .invalid _ => False

/-- The configuration in the terms of Model/TraceConfig. -/
def Obj.abs (c : Obj) : TraceConfig :=
  { mode := c.container.mode
    factory := match c.container.factory with | .user id => id | _ => 0
    size := c.size, callback := c.callback, stopTracing := c.stopTracing
    enabled := c.enabled, disabled := c.disabled }

theorem applyKV_abs (c : Obj) (key value : Str) :
    (c.abs.applyKV key value = .ok (c.applyKV key value).1.abs ∧ (c.applyKV key value).2 = .ok ()) ∨
    (∃ e, c.abs.applyKV key value = .throw e ∧ c.applyKV key value = (c, .throw e)) := by
  unfold Obj.applyKV TraceConfig.applyKV
  split
  · split
    · exact Or.inl ⟨rfl, rfl⟩
    · split
      · exact Or.inl ⟨rfl, rfl⟩
      · exact Or.inr ⟨_, rfl, rfl⟩
  · split
    · have hub : parseSize value ≠ .ub := by
        have hs : stoi value ≠ .ub := by
          unfold stoi
          dsimp only
          repeat' split
          all_goals simp
        unfold parseSize
        cases h : stoi value with
        | ok n => dsimp only; split <;> simp
        | throw e => cases e <;> simp
        | ub => exact absurd h hs
      cases h : parseSize value with
      | ok n => exact Or.inl ⟨rfl, rfl⟩
      | throw e => exact Or.inr ⟨e, rfl, rfl⟩
      | ub => exact absurd h hub
    · split
      · exact Or.inl ⟨rfl, rfl⟩
      · split
        · exact Or.inl ⟨rfl, rfl⟩
        · split
          · exact Or.inl ⟨rfl, rfl⟩
          · exact Or.inl ⟨rfl, rfl⟩

theorem applyArgs_abs (l : List Str) (c : Obj) :
    c.abs.applyArgs l = ((c.applyArgs l).1.abs, (c.applyArgs l).2) := by
  induction l generalizing c with
  | nil => rfl
  | cons a as ih =>
    unfold Obj.applyArgs TraceConfig.applyArgs TraceConfig.applyArg
    rcases hs : splitString a ':' with _ | ⟨key, _ | ⟨value, _ | ⟨_, _⟩⟩⟩ <;> try rfl
    dsimp only
    rcases applyKV_abs c key value with ⟨h1, h2⟩ | ⟨e, h1, h2⟩
    · rw [h1]
      rcases hkv : c.applyKV key value with ⟨c', r⟩
      rw [hkv] at h2
      cases h2
      exact ih c'
    · rw [h1, h2]

/-- C71: the objects behave as the configurations of C11-C14 do. -/
theorem C71_refines (c : Obj) (s : Str) :
    c.abs.updateFromString s = ((c.updateFromString s).1.abs, (c.updateFromString s).2) ∧
    (∀ m n, TraceConfig.make m n = (Obj.ofMode m n).bind (fun c => .ok c.abs)) ∧
    (∀ id n, TraceConfig.makeCustom id n = (Obj.ofFactory (.user id) n).abs) ∧
    TraceConfig.fromString s = (Obj.fromString s).bind (fun c => .ok c.abs) := by
  refine ⟨applyArgs_abs _ c, fun m n => by cases m <;> rfl, fun _ _ => rfl, ?_⟩
  have h := applyArgs_abs (splitString s ';') ⟨⟨.fixed, .makeFixed⟩, 1024 * 1024 * 8, none, false, [['*']], []⟩
  unfold TraceConfig.fromString TraceConfig.updateFromString Obj.fromString
  show _ = Res.bind (match Obj.updateFromString ⟨⟨.fixed, .makeFixed⟩, 1024 * 1024 * 8, none, false, [['*']], []⟩ s with
    | (c, .ok _) => Res.ok c | (_, .throw e) => .throw e | (_, .ub) => .ub) _
  unfold Obj.updateFromString
  rw [show TraceConfig.default =
    Obj.abs ⟨⟨.fixed, .makeFixed⟩, 1024 * 1024 * 8, none, false, [['*']], []⟩ from rfl, h]
  rcases Obj.applyArgs ⟨⟨.fixed, .makeFixed⟩, 1024 * 1024 * 8, none, false, [['*']], []⟩ (splitString s ';') with ⟨c', r⟩
  cases r <;> rfl

theorem applyKV_agrees {c : Obj} (h : Agrees c) (key value : Str) : Agrees (c.applyKV key value).1 := by
  unfold Obj.applyKV
  dsimp only
  split
  · split
    · rfl
    · split
      · rfl
      · exact h
  · split
    · split <;> exact h
    · repeat' split
      all_goals exact h

theorem applyArgs_agrees (l : List Str) {c : Obj} (h : Agrees c) : Agrees (c.applyArgs l).1 := by
  induction l generalizing c with
  | nil => exact h
  | cons a as ih =>
    unfold Obj.applyArgs
    split
    · rename_i key value _
      have := applyKV_agrees h key value
      rcases hkv : c.applyKV key value with ⟨c', r⟩
      rw [hkv] at this
      cases r
      · exact ih this
      · exact this
      · exact this
    · exact h

theorem fromString_agrees {s : Str} {c : Obj} (h : Obj.fromString s = .ok c) : Agrees c := by
  unfold Obj.fromString at h
  have hA := applyArgs_agrees (splitString s ';')
    (c := ⟨⟨.fixed, .makeFixed⟩, 1024 * 1024 * 8, none, false, [['*']], []⟩) rfl
  replace h : (match Obj.updateFromString ⟨⟨.fixed, .makeFixed⟩, 1024 * 1024 * 8, none, false, [['*']], []⟩ s with
    | (c, .ok _) => Res.ok c | (_, .throw e) => .throw e | (_, .ub) => .ub) = .ok c := h
  unfold Obj.updateFromString at h
  rcases hr : Obj.applyArgs ⟨⟨.fixed, .makeFixed⟩, 1024 * 1024 * 8, none, false, [['*']], []⟩ (splitString s ';') with ⟨c', r⟩
  rw [hr] at h hA
  cases r <;> simp at h
  subst h; exact hA

/-- All configurations of the program agree. -/
def World.Agree (w : World) : Prop := (∀ x, Agrees (w.var x)) ∧ ∀ c, w.startup = some c → Agrees c

theorem setf_agrees {f : Nat → Obj} {x : Nat} {c : Obj} (hf : ∀ x, Agrees (f x)) (hc : Agrees c) (y : Nat) :
    Agrees (setf f x c y) := by
  unfold setf; split
  · exact hc
  · exact hf y

theorem exec_agree {w : World} (h : w.Agree) (op : Op) : (w.exec op).Agree := by
  obtain ⟨hv, hs⟩ := h
  cases op with
  | new x => exact ⟨setf_agrees hv rfl, hs⟩
  | ofMode x m n =>
    cases m <;> first | exact ⟨setf_agrees hv rfl, hs⟩ | exact ⟨hv, hs⟩
  | ofFactory x id n => exact ⟨setf_agrees hv ⟨id, rfl⟩, hs⟩
  | fromString x s =>
    show World.Agree (w.init x (Obj.fromString s))
    cases hc : Obj.fromString s with
    | ok c => exact ⟨setf_agrees hv (fromString_agrees hc), hs⟩
    | throw e => exact ⟨hv, hs⟩
    | ub => exact ⟨hv, hs⟩
  | setStoppedCallback x cb => exact ⟨setf_agrees hv (hv x), hs⟩
  | setStopTracingOnDestruct x b => exact ⟨setf_agrees hv (hv x), hs⟩
  | setCategories x e d => exact ⟨setf_agrees hv (hv x), hs⟩
  | updateFromString x s => exact ⟨setf_agrees hv (applyArgs_agrees _ (hv x)), hs⟩
  | copy x y => exact ⟨setf_agrees hv (hv y), hs⟩
  | copyStartup x =>
    simp only [World.exec]
    split
    · rename_i c hst; exact ⟨setf_agrees hv (hs c hst), hs⟩
    · exact ⟨hv, hs⟩
  | setStartupTrace x => exact ⟨hv, fun c hc => by cases hc; exact hv x⟩
  | clearStartupTrace => exact ⟨hv, fun c hc => by cases hc⟩
  | fromEnvironment env =>
    cases env with
    | none => exact ⟨hv, hs⟩
    | some v =>
      simp only [World.exec]
      split
      · exact ⟨hv, hs⟩
      · cases hc : Obj.fromString (cstr v) with
        | ok c => exact ⟨hv, fun c' hc' => by cases hc'; exact fromString_agrees hc⟩
        | throw e => exact ⟨hv, hs⟩
        | ub => exact ⟨hv, hs⟩

theorem run_agree (ops : List Op) {w : World} (h : w.Agree) : (w.run ops).Agree := by
  induction ops generalizing w with
  | nil => exact h
  | cons op ops ih => exact ih (exec_agree h op)

/-- The variables of a program before it constructs anything in them. -/
def World.start : World := ⟨fun _ => .new, none⟩

/-- C71: whatever a program does with its configurations, including updates that throw half way,
the factory of a configuration makes buffers of the mode the configuration reports. -/
theorem C71_mode {ε : Type} (custom : Nat → Nat → Nat → Buffer ε) (ops : List Op) (c : Obj)
    (hc : (∃ x, c = (World.start.run ops).var x) ∨ (World.start.run ops).startup = some c) :
    (c.getBufferMode ≠ .custom → ∀ generation size,
      (c.getBufferFactory.make custom generation size).mode = c.getBufferMode ∧
      (c.getBufferFactory.make custom generation size).generation = generation ∧
      (c.getBufferFactory.make custom generation size).chunks.length = size) ∧
    (c.getBufferMode = .custom ↔ ∃ id, c.getBufferFactory = .user id) ∧
    ∃ s, modeToString c.getBufferMode = .ok s := by
  have hA : Agrees c := by
    have h := run_agree ops (w := World.start) ⟨fun _ => rfl, fun c hc => by cases hc⟩
    rcases hc with ⟨x, rfl⟩ | hc
    · exact h.1 x
    · exact h.2 c hc
  unfold Agrees at hA
  unfold Obj.getBufferMode Obj.getBufferFactory
  cases hm : c.container.mode <;> rw [hm] at hA
  · obtain ⟨id, e⟩ := hA
    exact ⟨fun h => absurd rfl h, by simp [e], _, rfl⟩
  · dsimp only at hA
    refine ⟨fun _ g n => ?_, by simp [hA], _, rfl⟩
    rw [hA]
    exact ⟨rfl, rfl, by simp [Factory.make, Buffer.makeFixed]⟩
  · dsimp only at hA
    refine ⟨fun _ g n => ?_, by simp [hA], _, rfl⟩
    rw [hA]
    exact ⟨rfl, rfl, by simp [Factory.make, Buffer.makeRing]⟩
  · exact hA.elim

/-- The operation writes to variable `x`. -/
def Op.writes (x : Nat) : Op → Bool
  | .new y | .ofMode y _ _ | .ofFactory y _ _ | .fromString y _ | .setStoppedCallback y _
  | .setStopTracingOnDestruct y _ | .setCategories y _ _ | .updateFromString y _ | .copy y _
  | .copyStartup y => y == x
  | .setStartupTrace _ | .clearStartupTrace | .fromEnvironment _ => false

/-- The operation is one on the start-up trace. -/
def Op.onStartup : Op → Bool
  | .setStartupTrace _ | .clearStartupTrace | .fromEnvironment _ => true
  | _ => false

/-- C71: configurations are values: an operation on one changes no other, and the start-up trace
set is the configuration as it was then, whatever is done to the configuration later. -/
theorem C71_values (w : World) (ops : List Op) :
    (∀ x, (∀ op ∈ ops, op.writes x = false) → (w.run ops).var x = w.var x) ∧
    ((∀ op ∈ ops, op.onStartup = false) → (w.run ops).startup = w.startup) ∧
    (∀ x, (∀ op ∈ ops, op.onStartup = false) →
      ((w.exec (.setStartupTrace x)).run ops).startup = some (w.var x)) := by
  have hinit : ∀ (w : World) (x : Nat) (r : Res Obj), (∀ z, z ≠ x → (w.init x r).var z = w.var z) ∧
      (w.init x r).startup = w.startup := by
    intro w x r
    cases r
    · exact ⟨fun z hz => setf_ne _ _ hz, rfl⟩
    · exact ⟨fun _ _ => rfl, rfl⟩
    · exact ⟨fun _ _ => rfl, rfl⟩
  have hone : ∀ (w : World) (op : Op),
      (∀ x, op.writes x = false → (w.exec op).var x = w.var x) ∧
      (op.onStartup = false → (w.exec op).startup = w.startup) := by
    intro w op
    cases op with
    | new y =>
      exact ⟨fun x hx => (hinit w y (.ok .new)).1 x (by simp [Op.writes] at hx; exact Ne.symm hx), fun _ => rfl⟩
    | ofMode y m n =>
      exact ⟨fun x hx => (hinit w y _).1 x (by simp [Op.writes] at hx; exact Ne.symm hx), fun _ => (hinit w y _).2⟩
    | ofFactory y i n =>
      exact ⟨fun x hx => (hinit w y (.ok (.ofFactory (.user i) n))).1 x
        (by simp [Op.writes] at hx; exact Ne.symm hx), fun _ => rfl⟩
    | fromString y s =>
      exact ⟨fun x hx => (hinit w y _).1 x (by simp [Op.writes] at hx; exact Ne.symm hx), fun _ => (hinit w y _).2⟩
    | setStoppedCallback y _ =>
      exact ⟨fun x hx => setf_ne _ _ (by simp [Op.writes] at hx; exact Ne.symm hx), fun _ => rfl⟩
    | setStopTracingOnDestruct y _ =>
      exact ⟨fun x hx => setf_ne _ _ (by simp [Op.writes] at hx; exact Ne.symm hx), fun _ => rfl⟩
    | setCategories y _ _ =>
      exact ⟨fun x hx => setf_ne _ _ (by simp [Op.writes] at hx; exact Ne.symm hx), fun _ => rfl⟩
    | updateFromString y _ =>
      exact ⟨fun x hx => setf_ne _ _ (by simp [Op.writes] at hx; exact Ne.symm hx), fun _ => rfl⟩
    | copy y _ => exact ⟨fun x hx => setf_ne _ _ (by simp [Op.writes] at hx; exact Ne.symm hx), fun _ => rfl⟩
    | copyStartup y =>
      simp only [World.exec]
      split
      · exact ⟨fun x hx => setf_ne _ _ (by simp [Op.writes] at hx; exact Ne.symm hx), fun _ => rfl⟩
      · exact ⟨fun _ _ => rfl, fun _ => rfl⟩
    | setStartupTrace y => exact ⟨fun _ _ => rfl, fun h => by cases h⟩
    | clearStartupTrace => exact ⟨fun _ _ => rfl, fun h => by cases h⟩
    | fromEnvironment env =>
      refine ⟨fun _ _ => ?_, fun h => by cases h⟩
      cases env with
      | none => rfl
      | some v =>
        simp only [World.exec]
        split
        · rfl
        · cases Obj.fromString (cstr v) <;> rfl
  have hvar : ∀ (ops : List Op) (w : World) x, (∀ op ∈ ops, op.writes x = false) → (w.run ops).var x = w.var x := by
    intro ops
    induction ops with
    | nil => intro w x _; rfl
    | cons op ops ih =>
      intro w x h
      exact (ih (w.exec op) x (fun o ho => h o (List.mem_cons_of_mem _ ho))).trans
        ((hone w op).1 x (h op (by simp)))
  have hst : ∀ (ops : List Op) (w : World), (∀ op ∈ ops, op.onStartup = false) → (w.run ops).startup = w.startup := by
    intro ops
    induction ops with
    | nil => intro w _; rfl
    | cons op ops ih =>
      intro w h
      exact (ih (w.exec op) (fun o ho => h o (List.mem_cons_of_mem _ ho))).trans
        ((hone w op).2 (h op (by simp)))
  exact ⟨fun x => hvar ops w x, hst ops w, fun x h => hst ops _ h⟩

/-- C71: the environment replaces the start-up trace iff the variable is set to a text that is not
empty and describes a configuration; otherwise it is left as it was. -/
theorem C71_environment (w : World) (env : Option Str) :
    (∀ v c, env = some v → cstr v ≠ [] → Obj.fromString (cstr v) = .ok c →
      (w.exec (.fromEnvironment env)).startup = some c) ∧
    ((∀ v c, env = some v → cstr v ≠ [] → Obj.fromString (cstr v) ≠ .ok c) →
      w.exec (.fromEnvironment env) = w) := by
  constructor
  · rintro v c rfl hv hc
    unfold World.exec
    simp [hv, hc]
  · intro h
    cases env with
    | none => rfl
    | some v =>
      simp only [World.exec]
      split
      · rfl
      · rename_i hv
        cases hc : Obj.fromString (cstr v) with
        | ok c => exact absurd hc (h v c rfl (by simpa using hv))
        | throw e => rfl
        | ub => rfl

/-- C71: every setter sets what its getter returns and nothing else. -/
theorem C71_setters (c : Obj) :
    (∀ cb, (c.setStoppedCallback cb).getStoppedCallback = cb ∧
      { c.setStoppedCallback cb with callback := c.callback } = c) ∧
    (∀ b, (c.setStopTracingOnDestruct b).getStopTracingOnDestruct = b ∧
      { c.setStopTracingOnDestruct b with stopTracing := c.stopTracing } = c) ∧
    (∀ e d, (c.setCategories e d).getEnabledCategories = e ∧ (c.setCategories e d).getDisabledCategories = d ∧
      { c.setCategories e d with enabled := c.enabled, disabled := c.disabled } = c) :=
  ⟨fun _ => ⟨rfl, rfl⟩, fun _ => ⟨rfl, rfl⟩, fun _ _ => ⟨rfl, rfl, rfl⟩⟩

/-- A custom configuration becomes a ring by an update that throws afterwards; the start-up trace
keeps the copy made before. -/
example :
    let w := World.start.run [.ofFactory 0 7 4096, .setStartupTrace 0,
      .updateFromString 0 "buffer-mode:ring;buffer-size:x".toList]
    (w.var 0).getBufferMode = .ring ∧ (w.var 0).getBufferFactory = .makeRing ∧ (w.var 0).getBufferSize = 4096 ∧
    (w.startup.map Obj.getBufferFactory) = some (.user 7) := by
  decide +kernel

end Phosphor.Cfg
