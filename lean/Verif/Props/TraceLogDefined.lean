import Verif.Props.TraceLogExn
import Verif.Props.Export
import Verif.Proof.BufOk
/-
C78: with the buffer factories of the library, and events that have a JSON text, no call of a
single thread is undefined, terminates the process or waits for ever.
-/
namespace Phosphor.Exc

/-- The event has a JSON text (C26 and C29 say which events do). -/
def HasText (e : Event) : Prop := ∀ pid tid, ∃ s, e.toJson pid tid = .ok s

/-- What is known of the buffer while tracing is on, `ch` being the chunk of the thread. -/
structure HasB (tid : Nat) (b : Buffer Event) (cont : List (Nat × List Event)) (ch : Option Nat) : Prop where
  ok : BufOk (fun _ => tid) b cont
  texts : ∀ p ∈ cont, ∀ e ∈ p.2, HasText e
  pos : 0 < b.chunks.length
  mine : ∀ i, ch = some i → i < cont.length ∧ i ∉ b.queue
  free : b.mode = .ring → ∀ j < cont.length, j ∈ b.queue ∨ ch = some j

variable {tid i : Nat} {b : Buffer Event} {cont : List (Nat × List Event)} {ch : Option Nat}

theorem HasB.back (h : HasB tid b cont (some i)) : HasB tid (b.returnChunk i) cont none := by
  obtain ⟨h1, h2⟩ := h.mine i rfl
  obtain ⟨a1, -, a3, -, a5⟩ := h.ok.returned h1 h2
  refine ⟨a1, h.texts, by rw [a5]; exact h.pos, fun i e => (by cases e), fun hm j hj => Or.inl ?_⟩
  rw [a3] at hm
  have hq : (b.returnChunk i).queue = b.queue ++ [i] := by
    simp only [Buffer.returnChunk, hm, Buffer.returnChunkRing]
  rw [hq, List.mem_append, List.mem_singleton]
  rcases h.free hm j hj with h | h
  · exact Or.inl h
  · cases h; exact Or.inr rfl

theorem HasB.add {b' : Buffer Event} (h : HasB tid b cont none)
    (hb : BufOk (fun _ => tid) b' (cont ++ [(0, [])])) (hq : b'.queue = b.queue) (hm : b'.mode = b.mode) :
    HasB tid b' (cont ++ [(0, [])]) (some cont.length) := by
  refine ⟨hb, fun p hp => ?_, ?_, fun i e => ?_, fun hr j hj => ?_⟩
  · rcases List.mem_append.1 hp with hp | hp
    · exact h.texts p hp
    · rw [List.mem_singleton] at hp; subst hp; intro e he; cases he
  · have := hb.length_le
    simp only [List.length_append, List.length_singleton] at this
    omega
  · cases e
    refine ⟨by simp, ?_⟩
    rw [hq]
    intro hc
    exact Nat.lt_irrefl _ (h.ok.qlt _ hc)
  · rw [hm] at hr
    rw [hq]
    simp only [List.length_append, List.length_singleton] at hj
    rcases Nat.lt_or_ge j cont.length with hlt | hge
    · rcases h.free hr j hlt with h | h
      · exact Or.inl h
      · cases h
    · right; congr 1; omega

theorem HasB.same {b' : Buffer Event} (h : HasB tid b cont none) (hb : BufOk (fun _ => tid) b' cont)
    (hn : cont.length = b.chunks.length) (hq : b'.queue = b.queue) (hm : b'.mode = b.mode) :
    HasB tid b' cont none := by
  refine ⟨hb, h.texts, ?_, fun i e => (by cases e), fun hr j hj => ?_⟩
  · have := hb.length_le
    have := h.pos
    omega
  · rw [hm] at hr; rw [hq]; exact h.free hr j hj

/-- Asking for a chunk gives an empty one or, from a full fixed buffer, none; it never waits. -/
theorem HasB.get (h : HasB tid b cont none) : ∃ b', 
    (∃ i cont', b.getChunk tid = (b', .chunk i) ∧ HasB tid b' cont' (some i) ∧ cont'[i]? = some (0, [])) ∨
    (b.getChunk tid = (b', .null) ∧ HasB tid b' cont none) := by
  rcases h.ok.mode with hm | hm
  · have hg : b.getChunk tid = b.getChunkFixed tid := by simp only [Buffer.getChunk, hm]
    rw [hg]
    cases e : b.getChunkFixed tid with
    | mk b' r =>
      refine ⟨b', ?_⟩
      by_cases hr : ∃ i, r = .chunk i
      · obtain ⟨i, rfl⟩ := hr
        obtain ⟨h1, h2, h3, h4, -⟩ := h.ok.getFixed (t := 0) e
        left
        subst h1
        exact ⟨_, _, rfl, h.add h2 h3 h4, by simp⟩
      · obtain ⟨h1, h2, h3, h4, h5, -⟩ := h.ok.getFixedNull (t := 0) e (fun i hi => hr ⟨i, hi⟩)
        right
        subst h1
        exact ⟨rfl, h.same h3 h2 h4 h5⟩
  · have hg : b.getChunk tid = b.getChunkRing tid := by simp only [Buffer.getChunk, hm]
    rw [hg]
    unfold Buffer.getChunkRing
    cases e : b.ringClaim tid with
    | mk b1 o =>
      cases o with
      | some i =>
        obtain ⟨h1, h2, h3, h4, -⟩ := h.ok.claim (t := 0) e
        subst h1
        exact ⟨b1, Or.inl ⟨_, _, rfl, h.add h2 h3 h4, by simp⟩⟩
      | none =>
        obtain ⟨h1, h2, h3, h4, -⟩ := h.ok.claimNone (t := 0) e
        have hs := h.same h2 h1 h3 h4
        simp only
        cases e2 : b1.ringTake tid with
        | none =>
          exfalso
          simp only [Buffer.ringTake] at e2
          split at e2
          · rename_i hq
            have hp := h.pos
            rcases hs.free (by rw [h4]; exact hm) 0 (by omega) with hf | hf
            · rw [hq] at hf; cases hf
            · cases hf
          · cases e2
        | some p =>
          obtain ⟨b2, i⟩ := p
          obtain ⟨g1, g2, g3, g4, -⟩ := hs.ok.take (t := 0) e2
          refine ⟨b2, Or.inl ⟨i, cont.set i (0, []), rfl, ⟨g2, fun p hp => ?_, ?_, fun j e => ?_, fun hr j hj => ?_⟩, ?_⟩⟩
          · rcases List.mem_or_eq_of_mem_set hp with hp | hp
            · exact h.texts p hp
            · subst hp; intro e he; cases he
          · have := g2.length_le
            rw [List.length_set] at this
            omega
          · cases e
            have hn := hs.ok.qnodup
            rw [g1] at hn
            exact ⟨by rw [List.length_set]; exact g3, (List.nodup_cons.1 hn).1⟩
          · rw [List.length_set] at hj
            rcases hs.free (by rw [h4]; exact hm) j hj with hf | hf
            · rw [g1] at hf
              rcases List.mem_cons.1 hf with hf | hf
              · right; rw [hf]
              · exact Or.inl hf
            · cases hf
          · rw [List.getElem?_set_self g3]

theorem HasB.push (h : HasB tid b cont (some i)) {t : Nat} {evs : List Event}
    (hi : cont[i]? = some (t, evs)) (hr : evs.length < chunkSize) {e : Event} (he : HasText e) :
    ∃ b' cont', b.pushAt i e = (b', .ok ()) ∧ HasB tid b' cont' (some i) := by
  obtain ⟨b', h1, h2, h3, h4, -⟩ := h.ok.push hi hr e
  refine ⟨b', _, h1, h2, fun p hp x hx => ?_, ?_, fun j hj => ?_, fun hm j hj => ?_⟩
  · obtain ⟨j, hj⟩ := List.getElem?_of_mem hp
    rw [List.getElem?_modify] at hj
    cases ej : cont[j]? with
    | none => rw [ej] at hj; simp at hj
    | some q =>
      rw [ej] at hj
      simp only [Option.map_eq_map, Option.map_some, Option.some.injEq] at hj
      have hq := h.texts q (List.mem_of_getElem? ej)
      split at hj
      · subst hj
        rcases List.mem_append.1 hx with hx | hx
        · exact hq x hx
        · rw [List.mem_singleton] at hx; subst hx; exact he
      · have : q = p := hj
        subst this; exact hq x hx
  · have := h2.length_le
    rw [List.length_modify] at this
    have := (h.mine i rfl).1
    omega
  · rw [List.length_modify, h3]; exact h.mine j hj
  · rw [List.length_modify] at hj
    rw [h3]; exact h.free (by rw [← h4]; exact hm) j hj

/-- Between calls: the log is settled and while tracing is on there is a sound buffer. -/
def Sound (l : Log) : Prop :=
  Inside l ∧ (l.enabled = true → ∃ b cont, l.buffer = some b ∧ HasB l.tid b cont l.chunk)

/-- The call returns or raises an exception. -/
def Fine (r : Ret) : Prop := r = .ret ∨ ∃ x, r = .raise x

theorem runCallback_fine (env : Env) (l : Log) (cb : Callback) (he : l.enabled = false)
    (hb : ∃ b cont, l.buffer = some b ∧ BufOk (fun _ => l.tid) b cont ∧
      ∀ p ∈ cont, ∀ e ∈ p.2, HasText e) :
    ∃ n, ∀ fuel, n ≤ fuel → Fine (l.runCallback env fuel cb).2 := by
  cases cb with
  | user k =>
    refine ⟨0, fun fuel _ => ?_⟩
    have := doOps_spec l (env.callback k).1 he
    simp only [Log.runCallback]
    generalize l.doOps (env.callback k).1 = r at this
    obtain ⟨l', r⟩ := r
    obtain ⟨-, h2⟩ := this
    simp only at h2
    subst h2
    cases (env.callback k).2 with
    | none => exact Or.inl rfl
    | some y => exact Or.inr ⟨y, rfl⟩
  | file p =>
    obtain ⟨b, cont, h1, h2, h3⟩ := hb
    have hctx : TraceContext.Holds ⟨l.buffer, l.names⟩ env.pid (tagged (fun _ => l.tid) cont) := by
      refine ⟨⟨b, h1, h2.holds⟩, fun q hq => ?_⟩
      simp only [flatEvents, List.mem_flatMap, List.mem_map, tagged] at hq
      obtain ⟨_, ⟨a, ha, rfl⟩, e, he, rfl⟩ := hq
      exact h3 a ha e he _ _
    refine ⟨(document env.pid l.names (flatEvents (tagged (fun _ => l.tid) cont))).length + 1, fun fuel hf => ?_⟩
    simp only [Log.runCallback]
    rcases C30_save_partial env.pid env.file _ _ hctx fuel (by exact hf) with ⟨h, -⟩ | ⟨h, r, file, e1, -, e2⟩
    · rw [h]; exact Or.inr ⟨_, rfl⟩
    · rw [if_pos h]
      simp only [saveOutcome, e1]
      rcases e2 with ⟨rfl, -⟩ | ⟨rfl, -⟩
      · exact Or.inl rfl
      · exact Or.inr ⟨_, rfl⟩

theorem stopLh_fine (env : Env) (l : Log) (sd : Bool) (h : Sound l) :
    ∃ n, ∀ fuel, n ≤ fuel → Fine (l.stopLh env fuel sd).2 := by
  cases he : l.enabled with
  | false => exact ⟨0, fun fuel _ => by rw [stopLh_off env fuel l sd he]; exact Or.inl rfl⟩
  | true =>
    cases hd : callbackDue l.config sd with
    | none => exact ⟨0, fun fuel _ => by rw [stopLh_on env fuel l sd he, hd]; exact Or.inl rfl⟩
    | some cb =>
      obtain ⟨b, cont, h1, h2⟩ := h.2 he
      obtain ⟨n, hn⟩ := runCallback_fine env l.stopping cb rfl ⟨b, cont, h1, h2.ok, h2.texts⟩
      exact ⟨n, fun fuel hf => by rw [stopLh_on env fuel l sd he, hd]; exact hn fuel hf⟩

theorem stopLh_sound (env : Env) (fuel : Nat) (l : Log) (sd : Bool) (h : Sound l) :
    Sound (l.stopLh env fuel sd).1 :=
  ⟨stopLh_inside env fuel l sd h.1, fun e => by rw [stopLh_disabled] at e; cases e⟩

/-- One of the library's buffer factories. -/
def Library (cfg : Cfg.Obj) : Prop := cfg.container.factory = .makeFixed ∨ cfg.container.factory = .makeRing

theorem make_library (env : Env) {f : Cfg.Factory} (hf : f = .makeFixed ∨ f = .makeRing) (g n tid : Nat)
    (hn : 0 < n) : make env f g n = .raises .badAlloc ∧ env.memory n = false ∨
      ∃ b, make env f g n = .buffer b ∧ env.memory n = true ∧ HasB tid b [] none := by
  have key : ∀ b : Buffer Event, BufOk (fun _ => tid) b [] → b.chunks.length = n → HasB tid b [] none :=
    fun b hb hl => ⟨hb, fun p hp => (by cases hp), by omega, fun i e => (by cases e), fun _ j hj => (by cases hj)⟩
  cases hm : env.memory n with
  | false =>
    left
    rcases hf with rfl | rfl <;> simp [make, hm]
  | true =>
    right
    rcases hf with rfl | rfl
    · exact ⟨.makeFixed g n, by simp [make, hm], rfl, key _ (.makeFixed g n) (by simp [Buffer.makeFixed])⟩
    · exact ⟨.makeRing g n, by simp [make, hm], rfl, key _ (.makeRing g n) (by simp [Buffer.makeRing])⟩

/-- The part of `start` before the factory is called. -/
def Log.startStop (env : Env) (fuel : Nat) (l : Log) (cfg : Cfg.Obj) : Log × Ret :=
  if l.enabled = true then ({ l with config := cfg } : Log).stopLh env fuel false
  else ({ l with config := cfg }, .ret)

theorem startStop_spec (env : Env) (fuel : Nat) (l : Log) (cfg : Cfg.Obj) (h : Sound l) :
    (l.startStop env fuel cfg).1.enabled = false ∧ (l.startStop env fuel cfg).1.chunk = none ∧
    (l.startStop env fuel cfg).1.config = cfg ∧ (l.startStop env fuel cfg).1.tid = l.tid := by
  have h' : Inside { l with config := cfg } := ⟨h.1.off, h.1.unregistered⟩
  unfold Log.startStop
  split
  · next he =>
    have hk := stopLh_kept env fuel { l with config := cfg } false he
    exact ⟨stopLh_disabled _ _ _ _, (stopLh_inside env fuel _ false h').off (stopLh_disabled _ _ _ _),
      hk.config, hk.tid⟩
  · next he => exact ⟨by simpa using he, h.1.off (by simpa using he), rfl, rfl⟩

theorem startLh_eq (env : Env) (fuel : Nat) (l : Log) (cfg : Cfg.Obj) (h : Sound l) (hl : Library cfg)
    (hz : cfg.size / sizeofTraceChunk ≠ 0) :
    ((l.startStop env fuel cfg).2 ≠ .ret ∧ l.startLh env fuel cfg = l.startStop env fuel cfg) ∨
    ((l.startStop env fuel cfg).2 = .ret ∧
      ((env.memory (cfg.size / sizeofTraceChunk) = false ∧ l.startLh env fuel cfg =
        ({ (l.startStop env fuel cfg).1 with generation := (l.startStop env fuel cfg).1.generation + 1 },
          .raise .badAlloc)) ∨
       ∃ b, env.memory (cfg.size / sizeofTraceChunk) = true ∧ HasB l.tid b [] none ∧
        l.startLh env fuel cfg = ({ (l.startStop env fuel cfg).1 with
          generation := (l.startStop env fuel cfg).1.generation + 1
          buffer := some b
          inForce := some (cfg.enabled, cfg.disabled)
          enabled := true }, .ret))) := by
  obtain ⟨p1, p2, p3, p4⟩ := startStop_spec env fuel l cfg h
  have hs : l.startLh env fuel cfg =
      match l.startStop env fuel cfg with
      | (l, .ret) =>
        let g := l.generation
        let l := { l with generation := g + 1 }
        match make env l.config.getBufferFactory g (cfg.getBufferSize / sizeofTraceChunk) with
        | .raises x => (l, .raise x)
        | .null => ({ l with
            buffer := none
            inForce := some (l.config.getEnabledCategories, l.config.getDisabledCategories)
            enabled := true }, .ret)
        | .buffer b => ({ l with
            buffer := some b
            inForce := some (l.config.getEnabledCategories, l.config.getDisabledCategories)
            enabled := true }, .ret)
      | r => r := by
    unfold Log.startLh
    simp only
    rw [if_neg (show ¬ cfg.getBufferSize / sizeofTraceChunk = 0 from hz)]
    rfl
  rw [hs]
  generalize l.startStop env fuel cfg = q at p1 p2 p3 p4
  obtain ⟨l1, r⟩ := q
  simp only at p1 p2 p3 p4
  cases r with
  | ret =>
    right
    refine ⟨rfl, ?_⟩
    simp only [p3]
    rcases make_library env hl l1.generation (cfg.size / sizeofTraceChunk) l.tid (Nat.pos_of_ne_zero hz) with
      ⟨e, hm⟩ | ⟨b, e, hm, hb⟩
    · left
      exact ⟨hm, by simp only [Cfg.Obj.getBufferFactory, Cfg.Obj.getBufferSize, e]⟩
    · right
      refine ⟨b, hm, hb, ?_⟩
      simp only [Cfg.Obj.getBufferFactory, Cfg.Obj.getBufferSize, e, Cfg.Obj.getEnabledCategories,
        Cfg.Obj.getDisabledCategories]
  | raise x => left; exact ⟨by simp, rfl⟩
  | terminate => left; exact ⟨by simp, rfl⟩
  | ub => left; exact ⟨by simp, rfl⟩
  | hang => left; exact ⟨by simp, rfl⟩

theorem startLh_zero (env : Env) (fuel : Nat) (l : Log) (cfg : Cfg.Obj)
    (hz : cfg.size / sizeofTraceChunk = 0) :
    l.startLh env fuel cfg = ({ l with config := cfg }, .raise (.lib .invalidArgument)) := by
  simp [Log.startLh, Cfg.Obj.getBufferSize, hz]

theorem startLh_sound (env : Env) (fuel : Nat) (l : Log) (cfg : Cfg.Obj) (h : Sound l) (hl : Library cfg) :
    Sound (l.startLh env fuel cfg).1 := by
  refine ⟨startLh_inside env fuel l cfg h.1, fun he => ?_⟩
  obtain ⟨p1, p2, p3, p4⟩ := startStop_spec env fuel l cfg h
  by_cases hz : cfg.size / sizeofTraceChunk = 0
  · rw [startLh_zero env fuel l cfg hz] at he ⊢
    exact h.2 he
  · rcases startLh_eq env fuel l cfg h hl hz with ⟨-, e⟩ | ⟨-, ⟨-, e⟩ | ⟨b, -, hb, e⟩⟩
    · rw [e, p1] at he; cases he
    · rw [e] at he; simp only at he; rw [p1] at he; cases he
    · rw [e]
      refine ⟨b, [], rfl, ?_⟩
      simp only [p4, p2]
      exact hb

theorem startLh_fine (env : Env) (l : Log) (cfg : Cfg.Obj) (h : Sound l) (hl : Library cfg) :
    ∃ n, ∀ fuel, n ≤ fuel → Fine (l.startLh env fuel cfg).2 := by
  by_cases hz : cfg.size / sizeofTraceChunk = 0
  · exact ⟨0, fun fuel _ => by rw [startLh_zero env fuel l cfg hz]; exact Or.inr ⟨_, rfl⟩⟩
  · obtain ⟨n, hn⟩ : ∃ n, ∀ fuel, n ≤ fuel → Fine (l.startStop env fuel cfg).2 := by
      unfold Log.startStop
      split
      · exact stopLh_fine env { l with config := cfg } false ⟨⟨h.1.off, h.1.unregistered⟩, h.2⟩
      · exact ⟨0, fun _ _ => Or.inl rfl⟩
    refine ⟨n, fun fuel hf => ?_⟩
    rcases startLh_eq env fuel l cfg h hl hz with ⟨-, e⟩ | ⟨-, ⟨-, e⟩ | ⟨b, -, hb, e⟩⟩
    · rw [e]; exact hn fuel hf
    · rw [e]; exact Or.inr ⟨_, rfl⟩
    · rw [e]; exact Or.inl rfl

theorem Sound.free {l : Log} (h : Sound l) : Sound l.freed := ⟨⟨h.1.off, h.1.unregistered⟩, h.2⟩

theorem Sound.hold {l : Log} (h : Sound l) : Sound l.held := ⟨⟨h.1.off, h.1.unregistered⟩, h.2⟩

/-- `replaceChunk` of a registered thread while tracing is on. -/
theorem replaceChunk_spec (l : Log) (h : Sound l) (he : l.enabled = true) (hi : l.initialised = true)
    (hu : l.locked = false) :
    ∃ b' c', (∃ i cont, l.replaceChunk = ({ l with buffer := some b', chunk := c' }, .yes) ∧ c' = some i ∧
        HasB l.tid b' cont (some i) ∧ cont[i]? = some (0, [])) ∨
      (l.replaceChunk = ({ l with buffer := some b', chunk := c' }, .no) ∧ c' = none ∧
        ∃ cont, HasB l.tid b' cont none) := by
  obtain ⟨b, cont, hb, hB⟩ := h.2 he
  have key : ∀ b1, HasB l.tid b1 cont none → ∃ b' c', 
      (∃ i cont, (match b1.getChunk l.tid with
        | (b, .chunk i) => ({ l with buffer := some b, chunk := some i }, .yes)
        | (b, .null) => ({ l with buffer := some b, chunk := none }, .no)
        | (b, .spins) => (({ l with buffer := some b, chunk := none } : Log), Got.fails .hang)) =
          ({ l with buffer := some b', chunk := c' }, .yes) ∧ c' = some i ∧
          HasB l.tid b' cont (some i) ∧ cont[i]? = some (0, [])) ∨
      ((match b1.getChunk l.tid with
        | (b, .chunk i) => ({ l with buffer := some b, chunk := some i }, .yes)
        | (b, .null) => ({ l with buffer := some b, chunk := none }, .no)
        | (b, .spins) => (({ l with buffer := some b, chunk := none } : Log), Got.fails .hang)) =
          ({ l with buffer := some b', chunk := c' }, .no) ∧ c' = none ∧ ∃ cont, HasB l.tid b' cont none) := by
    intro b1 h1
    obtain ⟨b', ⟨i, cont', e, h2, h3⟩ | ⟨e, h2⟩⟩ := h1.get
    · exact ⟨b', some i, Or.inl ⟨i, cont', by rw [e], rfl, h2, h3⟩⟩
    · exact ⟨b', none, Or.inr ⟨by rw [e], rfl, cont, h2⟩⟩
  cases hc : l.chunk with
  | none =>
    rw [hc] at hB
    have := key b hB
    have e : l.replaceChunk = (match b.getChunk l.tid with
        | (b, .chunk i) => ({ l with buffer := some b, chunk := some i }, .yes)
        | (b, .null) => ({ l with buffer := some b, chunk := none }, .no)
        | (b, .spins) => (({ l with buffer := some b, chunk := none } : Log), Got.fails .hang)) := by
      obtain ⟨_, _, _, _, _, _, _, _, _, _⟩ := l
      simp only at hb hc he
      subst hb hc he
      rfl
    rw [e]
    exact this
  | some i =>
    rw [hc] at hB
    have := key _ hB.back
    have e : l.replaceChunk = (match (b.returnChunk i).getChunk l.tid with
        | (b, .chunk i) => ({ l with buffer := some b, chunk := some i }, .yes)
        | (b, .null) => ({ l with buffer := some b, chunk := none }, .no)
        | (b, .spins) => (({ l with buffer := some b, chunk := none } : Log), Got.fails .hang)) := by
      obtain ⟨_, _, _, _, _, _, _, _, _, _⟩ := l
      simp only at hb hc he
      subst hb hc he
      rfl
    rw [e]
    exact this

theorem store_spec (l : Log) (e : Event) {b : Buffer Event} {cont : List (Nat × List Event)} {i t : Nat}
    {evs : List Event} (hb : l.buffer = some b) (hc : l.chunk = some i) (hB : HasB l.tid b cont (some i))
    (hi : cont[i]? = some (t, evs)) (hr : evs.length < chunkSize) (he : HasText e) :
    ∃ b' cont', l.store e = ({ l with buffer := some b' }, .ret) ∧ HasB l.tid b' cont' (some i) := by
  obtain ⟨b', cont', h1, h2⟩ := hB.push hi hr he
  exact ⟨b', cont', by simp only [Log.store, hb, hc, h1], h2⟩

theorem logEvent_sound (env : Env) (l : Log) (e : Event) (h : Sound l) (hu : l.locked = false)
    (he : HasText e) :
    (∀ fuel, Sound (l.logEvent env fuel e).1) ∧
    ∃ n, ∀ fuel, n ≤ fuel → Fine (l.logEvent env fuel e).2 := by
  cases hen : l.enabled with
  | false =>
    have : ∀ fuel, l.logEvent env fuel e = (l, .ret) := fun fuel => by simp [Log.logEvent, hen]
    exact ⟨fun fuel => by rw [this]; exact h, 0, fun fuel _ => by rw [this]; exact Or.inl rfl⟩
  | true =>
  cases hin : l.initialised with
  | false =>
    have : ∀ fuel, l.logEvent env fuel e = (l, .ret) := fun fuel => by simp [Log.logEvent, hen, hin]
    exact ⟨fun fuel => by rw [this]; exact h, 0, fun fuel _ => by rw [this]; exact Or.inl rfl⟩
  | true =>
  have ins : ∀ (b' : Buffer Event) (c' : Option Nat), Inside { l with buffer := some b', chunk := c' } :=
    fun b' c' => ⟨fun e => (by have e : l.enabled = false := e; rw [hen] at e; cases e),
      fun e => (by have e : l.initialised = false := e; rw [hin] at e; cases e)⟩
  -- a new chunk is wanted
  have want : l.needsChunk = .ok true →
      (∀ fuel, Sound (l.logEvent env fuel e).1) ∧
      ∃ n, ∀ fuel, n ≤ fuel → Fine (l.logEvent env fuel e).2 := by
    intro hw
    obtain ⟨b', c', ⟨i, cont, e1, rfl, h2, h3⟩ | ⟨e1, rfl, cont, h2⟩⟩ := replaceChunk_spec l h hen hin hu
    · obtain ⟨b2, cont2, e2, h4⟩ := store_spec { l with buffer := some b', chunk := some i } e rfl rfl h2 h3
        (by decide) he
      have : ∀ fuel, l.logEvent env fuel e = ({ l with buffer := some b2, chunk := some i }, .ret) :=
        fun fuel => by
          unfold Log.logEvent
          rw [if_pos hen, if_pos hin, hw]
          simp only
          rw [e1]
          exact e2
      exact ⟨fun fuel => by rw [this]; exact ⟨ins _ _, fun _ => ⟨b2, cont2, rfl, h4⟩⟩,
        0, fun fuel _ => by rw [this]; exact Or.inl rfl⟩
    · have hs : Sound { l with buffer := some b', chunk := none } := ⟨ins _ _, fun _ => ⟨b', cont, rfl, h2⟩⟩
      have : ∀ fuel, l.logEvent env fuel e =
          ((({ l with buffer := some b', chunk := none } : Log).held.stopLh env fuel false).1.freed,
            (({ l with buffer := some b', chunk := none } : Log).held.stopLh env fuel false).2) := by
        intro fuel
        unfold Log.logEvent
        rw [if_pos hen, if_pos hin, hw]
        simp only
        rw [e1]
        simp only [Log.maybeStop]
        rw [guarded_eq _ _ (by exact hu)]
        simp [Log.held]
      obtain ⟨n, hn⟩ := stopLh_fine env _ false hs.hold
      exact ⟨fun fuel => by rw [this]; exact (stopLh_sound env fuel _ false hs.hold).free,
        n, fun fuel hf => by rw [this]; exact hn fuel hf⟩
  cases hc : l.chunk with
  | none => exact want (by simp only [Log.needsChunk, hc])
  | some i =>
    obtain ⟨b, cont, hb, hB⟩ := h.2 hen
    rw [hc] at hB
    obtain ⟨hlt, -⟩ := hB.mine i rfl
    obtain ⟨p, hp⟩ : ∃ p, cont[i]? = some p := ⟨_, List.getElem?_eq_getElem hlt⟩
    obtain ⟨t, evs⟩ := p
    obtain ⟨c, g1, g2, g3⟩ := hB.ok.chunkAt hp
    have hca : b.chunkAt i = .ok c := by simp only [Buffer.chunkAt, g1]
    cases hf : c.isFull with
    | true => exact want (by simp only [Log.needsChunk, hc, hb, hca, hf])
    | false =>
      have hw : l.needsChunk = .ok false := by simp only [Log.needsChunk, hc, hb, hca, hf]
      have hr : evs.length < chunkSize := by
        have h1 := g3.count
        have h2 := g3.room
        have h3 : c.nextFree = evs.length := h1
        simp only [Chunk.isFull, beq_eq_false_iff_ne] at hf
        omega
      obtain ⟨b2, cont2, e2, h4⟩ := store_spec l e hb hc hB hp hr he
      have : ∀ fuel, l.logEvent env fuel e = ({ l with buffer := some b2 }, .ret) :=
        fun fuel => by simp only [Log.logEvent, hen, hin, if_true, hw, e2]
      exact ⟨fun fuel => by
          rw [this]
          exact ⟨⟨h.1.off, h.1.unregistered⟩, fun _ => ⟨b2, cont2, rfl, by simp only [hc]; exact h4⟩⟩,
        0, fun fuel _ => by rw [this]; exact Or.inl rfl⟩

/-- The call uses a factory of the library and logs events that have a text. -/
def Call.Proper : Call → Prop
  | .start cfg => Library cfg
  | .log e => HasText e
  | _ => True

theorem guarded_sound (l : Log) (body : Nat → Log → Log × Ret) (h : Sound l) (hu : l.locked = false)
    (hb : ∀ l, Sound l → (∀ fuel, Sound (body fuel l).1) ∧ ∃ n, ∀ fuel, n ≤ fuel → Fine (body fuel l).2) :
    (∀ fuel, Sound (l.guarded (body fuel)).1) ∧
    ∃ n, ∀ fuel, n ≤ fuel → Fine (l.guarded (body fuel)).2 := by
  obtain ⟨h1, n, h2⟩ := hb l.held h.hold
  exact ⟨fun fuel => by rw [guarded_eq _ _ hu]; exact (h1 fuel).free,
    n, fun fuel hf => by rw [guarded_eq _ _ hu]; exact h2 fuel hf⟩

theorem call_sound (env : Env) (l : Log) (c : Call) (h : Sound l) (hu : l.locked = false) (hp : c.Proper) :
    (∀ fuel, Sound (l.call env fuel c).1) ∧ ∃ n, ∀ fuel, n ≤ fuel → Fine (l.call env fuel c).2 := by
  cases c with
  | start cfg =>
    exact guarded_sound l (fun fuel l => l.startLh env fuel cfg) h hu fun l hl =>
      ⟨fun fuel => startLh_sound env fuel l cfg hl hp, startLh_fine env l cfg hl hp⟩
  | stop sd =>
    exact guarded_sound l (fun fuel l => l.stopLh env fuel sd) h hu fun l hl =>
      ⟨fun fuel => stopLh_sound env fuel l sd hl, stopLh_fine env l sd hl⟩
  | log e => exact logEvent_sound env l e h hu hp
  | getBuffer =>
    refine guarded_sound l (fun _ l => l.takeBuffer) h hu fun l hl => ?_
    unfold Log.takeBuffer
    split
    · exact ⟨fun _ => hl, 0, fun _ _ => Or.inr ⟨_, rfl⟩⟩
    · next he =>
      exact ⟨fun _ => ⟨⟨hl.1.off, hl.1.unregistered⟩, fun e => absurd e he⟩, 0, fun _ _ => Or.inl rfl⟩
  | register =>
    refine guarded_sound l (fun _ l => if l.initialised = true then (l, .raise (.lib .logicError))
      else ({ l with initialised := true }, .ret)) h hu fun l hl => ?_
    split
    · exact ⟨fun _ => hl, 0, fun _ _ => Or.inr ⟨_, rfl⟩⟩
    · exact ⟨fun _ => ⟨⟨hl.1.off, fun e => by simp at e⟩, hl.2⟩, 0, fun _ _ => Or.inl rfl⟩
  | deregister =>
    refine guarded_sound l (fun _ l =>
      if l.initialised = true then
        let l :=
          match l.chunk, l.buffer with
          | some i, some b => { l with buffer := some (b.returnChunk i) }
          | _, _ => l
        ({ l with chunk := none, initialised := false }, .ret)
      else (l, .raise (.lib .logicError))) h hu fun l hl => ?_
    simp only
    split
    · refine ⟨fun _ => ⟨⟨fun _ => rfl, fun _ => rfl⟩, ?_⟩, 0, fun _ _ => Or.inl rfl⟩
      simp only
      cases hc : l.chunk with
      | none =>
        simp only
        intro he
        have := hl.2 he
        rw [hc] at this
        exact this
      | some i =>
        cases hb : l.buffer with
        | none =>
          simp only
          intro he
          obtain ⟨b, cont, h1, -⟩ := hl.2 he
          rw [hb] at h1; cases h1
        | some b =>
          simp only
          intro he
          obtain ⟨b', cont, h1, h2⟩ := hl.2 he
          rw [hb] at h1
          cases h1
          rw [hc] at h2
          exact ⟨_, cont, rfl, h2.back⟩
    · exact ⟨fun _ => hl, 0, fun _ _ => Or.inr ⟨_, rfl⟩⟩

theorem calls_sound (l l' : Log) (cs : List (Env × Nat × Call)) (hu : Settled l) (h : Sound l)
    (hp : ∀ c ∈ cs, c.2.2.Proper) (hc : l.calls cs = some l') : Settled l' ∧ Sound l' := by
  induction cs generalizing l with
  | nil => cases hc; exact ⟨hu, h⟩
  | cons c cs ih =>
    obtain ⟨env, fuel, c⟩ := c
    have hs := call_settled env fuel l c hu
    have hg := (call_sound env l c h hu.unlocked (hp _ (List.mem_cons_self ..))).1 fuel
    rw [Log.calls] at hc
    generalize l.call env fuel c = r at hs hc hg
    obtain ⟨l1, r⟩ := r
    have hp' : ∀ c ∈ cs, c.2.2.Proper := fun c hc => hp c (List.mem_cons_of_mem _ hc)
    cases r with
    | ret => exact ih l1 hs hg hp' hc
    | raise x => exact ih l1 hs hg hp' hc
    | terminate => cases hc
    | ub => cases hc
    | hang => cases hc

/-- C78: after any calls with the library's buffer factories and events that have a text, of which any
may have raised, every further such call returns or raises an exception: it is not undefined, does
not terminate the process, and does not wait for ever (`n` is the number of rounds a file saving
callback needs). Missing for the full claim: the exceptions of `logEvent` (`C78_refuted`). -/
theorem C78_defined_partial (tid : Nat) (cs : List (Env × Nat × Call)) (l : Log)
    (hp : ∀ c ∈ cs, c.2.2.Proper) (hc : (Log.new tid).calls cs = some l) (env : Env) (c : Call)
    (hpc : c.Proper) :
    ∃ n, ∀ fuel, n ≤ fuel → (l.call env fuel c).2 = .ret ∨ ∃ x, (l.call env fuel c).2 = .raise x := by
  have := calls_sound _ _ cs (new_settled tid)
    ⟨⟨fun _ => rfl, fun _ => rfl⟩, fun e => by cases e⟩ hp hc
  exact (call_sound env l c this.2 this.1.unlocked hpc).2

/-- C78: a `start` whose buffer cannot be allocated raises `bad_alloc`, with tracing off, the mutex free
and the buffer of the previous run still to be fetched. -/
theorem C78_memory_partial (env : Env) (fuel : Nat) (l : Log) (cfg : Cfg.Obj) (h : Settled l)
    (hoff : l.enabled = false) (hsize : sizeofTraceChunk ≤ cfg.size) (hl : Library cfg)
    (hm : env.memory (cfg.size / sizeofTraceChunk) = false) :
    ∃ l', l.start env fuel cfg = (l', .raise .badAlloc) ∧ l'.enabled = false ∧ l'.locked = false ∧
      l'.buffer = l.buffer ∧ l'.inForce = l.inForce := by
  have hz : cfg.size / sizeofTraceChunk ≠ 0 := by
    have := Nat.div_pos hsize (by decide)
    omega
  have hs : Sound l.held := ⟨⟨h.off, h.unregistered⟩, fun e => by
    have : l.enabled = true := e
    rw [hoff] at this; cases this⟩
  have hss : l.held.startStop env fuel cfg = ({ l.held with config := cfg }, .ret) := by
    unfold Log.startStop
    rw [if_neg (by simp [Log.held, hoff])]
  rw [Log.start, guarded_eq l _ h.unlocked]
  rcases startLh_eq env fuel l.held cfg hs hl hz with ⟨e, -⟩ | ⟨-, ⟨-, e⟩ | ⟨b, e, -, -⟩⟩
  · rw [hss] at e; exact absurd rfl e
  · rw [e, hss]
    exact ⟨_, rfl, hoff, rfl, rfl, rfl⟩
  · rw [hm] at e; cases e

/-- C78: `getBuffer` of a log that is tracing raises and leaves the trace where it is; otherwise it
takes the trace out. -/
theorem C78_take_partial (l : Log) (h : Settled l) :
    (l.enabled = true → l.getBuffer = (l, .raise (.lib .logicError))) ∧
    (l.enabled = false → l.getBuffer = ({ l with buffer := none }, .ret)) := by
  have hu := h.unlocked
  rw [Log.getBuffer, guarded_eq l _ hu]
  obtain ⟨_, _, _, _, _, _, _, _, _, _⟩ := l
  simp only at hu
  subst hu
  constructor
  · intro he
    simp only at he
    subst he
    rfl
  · intro he
    simp only at he
    subst he
    rfl

theorem exampleEvent_hasText : HasText exampleEvent := by
  intro pid tid
  refine C26_total exampleEvent pid tid (fun h => ?_) (fun a ha => ?_)
  · rcases h with h | h <;> cases h
  · have hp : presentArgs exampleEvent = [(some "x".toList, .str 0x1000#64 "hello".toList, .isString),
      (some "y".toList, .word (BitVec.ofInt 64 (-5)), .isInt)] := rfl
    rw [hp, List.mem_cons, List.mem_cons] at ha
    rcases ha with rfl | rfl | ha
    · exact ⟨by simp, _, rfl⟩
    · exact ⟨by simp, _, rfl⟩
    · cases ha

/-- A case of `C78_defined_partial` in which calls raise: two runs into one chunk each, saved to a disk
that is full (so the second `start` raises and is repeated); the second buffer is full and the next
event makes `logEvent` raise. -/
example :
    let cs : List (Env × Nat × Call) := [(noSpace, 10, .register), (noSpace, 10, .start saving),
      (noSpace, 10, .register), (noSpace, 10, .log exampleEvent), (noSpace, 10, .start saving), (noSpace, 10, .start saving)] ++
      List.replicate chunkSize (noSpace, 10, .log exampleEvent)
    (∀ c ∈ cs, c.2.2.Proper) ∧ (((Log.new 7).calls cs).map fun l => (l.call noSpace 10 (.log exampleEvent)).2) =
      some (.raise (.lib .runtimeError)) := by
  refine ⟨fun c hc => ?_, by decide +kernel⟩
  have hs : Library saving := Or.inl (by decide +kernel)
  simp only [List.cons_append, List.nil_append, List.mem_cons, List.mem_replicate] at hc
  rcases hc with rfl | rfl | rfl | rfl | rfl | rfl | ⟨-, rfl⟩
  · trivial
  · exact hs
  · trivial
  · exact exampleEvent_hasText
  · exact hs
  · exact hs
  · exact exampleEvent_hasText

/-- A case of `C78_memory_partial` and of both halves of `C78_take_partial`. -/
example :
    let quiet : Cfg.Obj := { saving with callback := none }
    let noMemory : Env := { noDirectory with memory := fun _ => false }
    ((Log.new 7).calls [(noDirectory, 0, .start quiet)]).map (fun l => (l.getBuffer.2, (l.stop noDirectory 0 false).1.getBuffer.2,
      ((l.stop noDirectory 0 false).1.start noMemory 0 quiet).2)) =
      some (.raise (.lib .logicError), .ret, .raise .badAlloc) := by
  decide +kernel

end Phosphor.Exc
