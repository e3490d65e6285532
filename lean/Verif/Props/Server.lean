import Verif.Model.Server
import Verif.Props.Seeds

set_option autoImplicit false

/-! # Starting and stopping servers: C63; the main function: C64 -/

namespace Meerkat

/-- Calls on the servers of a process. -/
inductive ServerOp where
  | start (server : Server)
  | stop (server : Server)

def ServerOp.run : ServerOp → Process → Res Process
  | .start v, s => v.start s
  | .stop v, s => v.stop s

/-- The calls one after the other. -/
def runServers : List ServerOp → Process → Res Process
  | [], s => .ok s
  | op :: ops, s =>
    match op.run s with
    | .ok s => runServers ops s
    | .error e => .error e

def ServerOp.isStart : ServerOp → Bool
  | .start _ => true
  | .stop _ => false

/-- What should have been logged: a line for each call, once logging was set up by the first start. -/
def expectedLog : Bool → List ServerOp → List String
  | _, [] => []
  | _, .start _ :: ops => "starting" :: expectedLog true ops
  | on, .stop _ :: ops => (if on then ["stopping"] else []) ++ expectedLog on ops

/-- C63 as far as it holds: calls to any servers of a process, with at most one start among them, never panic if nothing
else has installed a subscriber, and log what they should. -/
theorem C63_lifecycle_partial (ops : List ServerOp) (s : Process) (hs : s.subscriber = false)
    (h : ops.countP ServerOp.isStart ≤ 1) :
    ∃ s', runServers ops s = .ok s' ∧ s'.logged = s.logged ++ expectedLog false ops ∧ s'.printed = s.printed := by
  have after : ∀ (ops : List ServerOp) (s : Process), s.subscriber = true → ops.countP ServerOp.isStart = 0 →
      ∃ s', runServers ops s = .ok s' ∧ s'.logged = s.logged ++ expectedLog true ops ∧ s'.printed = s.printed := by
    intro ops
    induction ops with
    | nil => intro s _ _; exact ⟨s, rfl, by simp [expectedLog], rfl⟩
    | cons op ops ih =>
      intro s hs h
      cases op with
      | start v => simp [ServerOp.isStart] at h
      | stop v =>
        simp only [List.countP_cons, ServerOp.isStart, Bool.false_eq_true, if_false, Nat.add_zero] at h
        obtain ⟨s', h1, h2, h3⟩ := ih (s.info "stopping") (by simp [Process.info, hs]) h
        refine ⟨s', ?_, ?_, ?_⟩
        · simpa [runServers, ServerOp.run, Server.stop, pure, Except.pure] using h1
        · rw [h2]; simp [Process.info, hs, expectedLog]
        · rw [h3]; simp [Process.info, hs]
  induction ops generalizing s with
  | nil => exact ⟨s, rfl, by simp [expectedLog], rfl⟩
  | cons op ops ih =>
    cases op with
    | start v =>
      simp only [List.countP_cons, ServerOp.isStart, if_true] at h
      obtain ⟨s', h1, h2, h3⟩ := after ops { s with subscriber := true, logged := s.logged ++ ["starting"] } rfl (by omega)
      refine ⟨s', ?_, ?_, by rw [h3]⟩
      · simpa [runServers, ServerOp.run, Server.start, Server.initLogging, hs, Process.info, pure, Except.pure, bind,
          Except.bind] using h1
      · rw [h2]; simp [expectedLog]
    | stop v =>
      simp only [List.countP_cons, ServerOp.isStart, Bool.false_eq_true, if_false, Nat.add_zero] at h
      obtain ⟨s', h1, h2, h3⟩ := ih s hs h
      refine ⟨s', ?_, ?_, h3⟩
      · simpa [runServers, ServerOp.run, Server.stop, Process.info, hs, pure, Except.pure] using h1
      · rw [h2]; simp [expectedLog]

/-- C63 is false of the code, and this is exactly when: the calls panic if and only if two of them are starts. -/
theorem C63_second_start_panics_violated (ops : List ServerOp) (s : Process) (hs : s.subscriber = false) :
    runServers ops s = .error .expect ↔ 2 ≤ ops.countP ServerOp.isStart := by
  have after : ∀ (ops : List ServerOp) (s : Process), s.subscriber = true → 1 ≤ ops.countP ServerOp.isStart →
      runServers ops s = .error .expect := by
    intro ops
    induction ops with
    | nil => intro s _ h; simp at h
    | cons op ops ih =>
      intro s hs h
      cases op with
      | start v => simp [runServers, ServerOp.run, Server.start, Server.initLogging, hs, bind, Except.bind]
      | stop v =>
        simp only [List.countP_cons, ServerOp.isStart, Bool.false_eq_true, if_false, Nat.add_zero] at h
        have := ih (s.info "stopping") (by simp [Process.info, hs]) h
        simpa [runServers, ServerOp.run, Server.stop, pure, Except.pure] using this
  constructor
  · intro h
    by_cases hc : 2 ≤ ops.countP ServerOp.isStart
    · exact hc
    · obtain ⟨s', h1, _⟩ := C63_lifecycle_partial ops s hs (by omega)
      rw [h1] at h; cases h
  · intro h
    induction ops generalizing s with
    | nil => simp at h
    | cons op ops ih =>
      cases op with
      | start v =>
        simp only [List.countP_cons, ServerOp.isStart, if_true] at h
        have := after ops { s with subscriber := true, logged := s.logged ++ ["starting"] } rfl (by omega)
        simpa [runServers, ServerOp.run, Server.start, Server.initLogging, hs, Process.info, pure, Except.pure, bind,
          Except.bind] using this
      | stop v =>
        simp only [List.countP_cons, ServerOp.isStart, Bool.false_eq_true, if_false, Nat.add_zero] at h
        have := ih s hs h
        simpa [runServers, ServerOp.run, Server.stop, Process.info, hs, pure, Except.pure] using this

/-- **C64.** In a new process `main` never panics, for any arguments and any build information; it prints one
line, starts one server, whose path and port are those of the arguments and whose seeds, when given, are those of C55. -/
theorem C64_main (b : BuiltInfo) (args : Args) :
    ∃ server s, main b args { subscriber := false, logged := [], printed := [] } = .ok (server, s) ∧
      server.conf.dbPath = args.dbPath ∧ server.conf.gossipPort = args.gossipPort ∧
      s.logged = ["starting"] ∧
      s.printed = ["meerkat " ++ (match b.gitVersion with | some v => v | none => "<unknown>") ++ " (" ++ b.profile ++ ") "] ∧
      ∀ entries : List (List Char × List Char × List Char), entries ≠ [] → args.seeds = some (joinSeeds entries) →
        (∀ e ∈ entries, (∀ c ∈ e.1, Blank c) ∧ (∀ c ∈ e.2.2, Blank c) ∧ ',' ∉ e.2.1 ∧
          (∀ c, e.2.1.head? = some c → ¬ Blank c) ∧ (∀ c, e.2.1.getLast? = some c → ¬ Blank c)) →
        server.conf.seeds = entries.map (fun e => e.2.1) := by
  refine ⟨_, _, rfl, rfl, rfl, rfl, ?_, ?_⟩
  · show [] ++ ["meerkat " ++ shortInfo b] = _
    rw [List.nil_append, shortInfo]
    cases b.gitVersion <;> simp only [UNKNOWN, Option.getD_some, Option.getD_none, String.append_assoc]
  · intro entries hne hs h
    show parseSeeds args.seeds = _
    rw [hs]
    exact C55_seeds_determined_partial entries hne h

/-- **C64**, the version text: the five facts of the build in this order, each after its label, the version being
`<unknown>` outside a Git checkout; every one of them is in the text as it is in the build. -/
theorem C64_version_text (b : BuiltInfo) :
    longInfo b = String.join ((List.zip
      ["version: ", " profile: ", " rustc: ", " target: ", " built time: "]
      [match b.gitVersion with | some v => v | none => "<unknown>", b.profile, b.rustcVersion, b.target,
        b.builtTimeUtc]).map fun x => x.1 ++ x.2) := by
  have h : b.gitVersion.getD UNKNOWN = match b.gitVersion with | some v => v | none => "<unknown>" := by
    cases b.gitVersion <;> rfl
  rw [longInfo, h]
  generalize (match b.gitVersion with | some v => v | none => "<unknown>") = v
  simp [String.join, String.append_assoc]

example : longInfo ⟨none, "release", "rustc 1.50", "x86_64", "noon"⟩ =
    "version: <unknown> profile: release rustc: rustc 1.50 target: x86_64 built time: noon" := by decide +kernel

/-- Two seeds; the same server started twice. -/
example :
    (main ⟨none, "release", "r", "t", "b"⟩ ⟨[47], 7775, some "a, b".toList⟩ ⟨false, [], []⟩) =
      .ok (⟨⟨[47], 7775, ["a".toList, "b".toList]⟩⟩, ⟨true, ["starting"], ["meerkat <unknown> (release) "]⟩) ∧
    runServers [.stop ⟨⟨[], 1, []⟩⟩, .start ⟨⟨[], 1, []⟩⟩, .stop ⟨⟨[], 1, []⟩⟩] ⟨false, [], []⟩ =
      .ok ⟨true, ["starting", "stopping"], []⟩ ∧
    runServers [.start ⟨⟨[], 1, []⟩⟩, .start ⟨⟨[], 1, []⟩⟩] ⟨false, [], []⟩ = .error .expect := by
  decide +kernel

end Meerkat
