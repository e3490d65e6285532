import Verif.Model.Stdout
import Verif.Props.Server

set_option autoImplicit false

/-! # Servers whose output cannot be written: C104 -/

namespace Meerkat

/-- With an output that can be written, this is the `main` of C64. -/
theorem mainOn_works (b : BuiltInfo) (args : Args) (s : Process) : mainOn .works b args s = main b args s := rfl

/-- C104, exactly: in a new process `main` starts the server of C64 if the line can be written or the descriptor is not open, and panics
before it starts anything otherwise. -/
theorem C104_output_exact (out : Stdout) (b : BuiltInfo) (args : Args) :
    (out ≠ .fails ∧ ∃ server s s', mainOn out b args { subscriber := false, logged := [], printed := [] } = .ok (server, s) ∧
      main b args { subscriber := false, logged := [], printed := [] } = .ok (server, s') ∧ s.logged = ["starting"] ∧
      s.printed = (match out with | .works => s'.printed | _ => [])) ∨
    (out = .fails ∧ mainOn out b args { subscriber := false, logged := [], printed := [] } = .error .expect) := by
  cases out with
  | works => exact .inl ⟨by decide, _, _, _, rfl, rfl, rfl, rfl⟩
  | closed => exact .inl ⟨by decide, _, _, _, rfl, rfl, rfl, rfl⟩
  | fails => exact .inr ⟨rfl, rfl⟩

/-- C104 as far as it holds. -/
theorem C104_output_partial (out : Stdout) (h : out ≠ .fails) (b : BuiltInfo) (args : Args) :
    ∃ server s, mainOn out b args { subscriber := false, logged := [], printed := [] } = .ok (server, s) ∧
      server.conf = configOf args ∧ s.subscriber = true ∧ s.logged = ["starting"] := by
  cases out with
  | works => exact ⟨_, _, rfl, rfl, rfl, rfl⟩
  | closed => exact ⟨_, _, rfl, rfl, rfl, rfl⟩
  | fails => exact absurd rfl h

/-- C104 is false of the code: whatever the arguments, no server is started if the first line cannot be written. -/
theorem C104_output_violated (b : BuiltInfo) (args : Args) (s : Process) : mainOn .fails b args s = .error .expect := rfl

/-- The three outputs. -/
example : (mainOn .works ⟨none, "debug", "", "", ""⟩ ⟨[47], 7775, none⟩ ⟨false, [], []⟩).toOption.map (·.2.printed) =
    some ["meerkat <unknown> (debug) "] ∧
    (mainOn .closed ⟨none, "debug", "", "", ""⟩ ⟨[47], 7775, none⟩ ⟨false, [], []⟩).toOption.map (·.2.printed) = some [] ∧
    (mainOn .fails ⟨none, "debug", "", "", ""⟩ ⟨[47], 7775, none⟩ ⟨false, [], []⟩).toOption.map (·.2.printed) = none := by
  decide +kernel

end Meerkat
