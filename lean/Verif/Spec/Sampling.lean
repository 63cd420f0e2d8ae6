import Mathlib.Probability.Distributions.Uniform
import Verif.Spec.Damage
import Verif.Model.NoiseProb

/-!
# The probabilities of stim's detector sampler

The distribution of the record of measurement flips of a sequence of instructions, following the Pauli frame (`Spec/Frame.lean`). Random bits are
uniform. Every target of a noise channel makes an error independently with the probability that is the channel's argument; the error is then drawn
uniformly from the errors of this channel. A measurement with an argument flips each of its results independently with this probability. Along with
the record, it is kept which of the targets and results were hit by an error.
-/

namespace Honeycomb
open scoped ENNReal

instance : Fintype Basis := ⟨{.X, .Y, .Z}, fun b => by cases b <;> simp⟩

/-- The probability that an argument stands for. -/
noncomputable def Arg.chance : Arg → ℝ≥0∞
  | .lit p => ENNReal.ofReal p
  | .indep p n => ENNReal.ofReal (mixToIndependent p n)

/-- The probability argument of an instruction; without one nothing goes wrong. -/
noncomputable def Instr.chance (i : Instr) : ℝ≥0∞ := (i.args.head?.map Arg.chance).getD 0

/-- A coin that shows `true` with probability `p` (at most 1). -/
noncomputable def biased (p : ℝ≥0∞) : PMF Bool :=
  PMF.ofFintype (fun b => if b then min p 1 else 1 - min p 1) (by
    rw [Fintype.sum_bool]
    simp [add_tsub_cancel_of_le])

/-- A fair random bit. -/
noncomputable def fair : PMF (ZMod 2) := PMF.uniformOfFintype (ZMod 2)

/-- An action: the results that it reports, and the frame after it. -/
noncomputable def Action.sample (F : Frame) : Action → PMF (List (ZMod 2) × Frame)
  | .clifford1 f q => PMF.pure ([], F.set q (f (F q)))
  | .control P Q a b => PMF.pure ([], (F.kick (anti (F b) Q.pauli) [(P, a)]).kick (anti (F a) P.pauli) [(Q, b)])
  | .reset b q => fair.map fun r => ([], (F.set q 0).kick r [(b, q)])
  | .measure P => fair.map fun r => ([F.flips P], F.kick r P)

/-- A sequence of actions. -/
noncomputable def sampleActions (F : Frame) : List Action → PMF (List (ZMod 2) × Frame)
  | [] => PMF.pure ([], F)
  | a :: as => (a.sample F).bind fun x => (sampleActions x.2 as).map fun y => (x.1 ++ y.1, y.2)

/-- The errors of the single targets (pairs of targets for `DEPOLARIZE2`) of a noise channel: what the frame is multiplied by if there is an error. -/
noncomputable def Instr.errors (i : Instr) : List (PMF Frame) :=
  match i.gate with
  | .X_ERROR => i.qubits.map fun q => PMF.pure (Frame.mul (fun _ => 0) q Basis.X.pauli)
  | .Z_ERROR => i.qubits.map fun q => PMF.pure (Frame.mul (fun _ => 0) q Basis.Z.pauli)
  | .DEPOLARIZE1 => i.qubits.map fun q => (PMF.uniformOfFintype Basis).map fun b => Frame.mul (fun _ => 0) q b.pauli
  | .DEPOLARIZE2 => (pairs i.qubits).map fun x =>
      (PMF.uniformOfFinset ({0}ᶜ : Finset (Pauli × Pauli)) ⟨((1, 0), 0), by decide⟩).map fun e => Frame.mul (Frame.mul (fun _ => 0) x.1 e.1) x.2 e.2
  | .E => [PMF.pure (targetsPauli i.targets)]
  | _ => []

/-- Each of the errors `Es` happens with probability `p`: the frame after them, and which of them happened. -/
noncomputable def withErrors (p : ℝ≥0∞) : List (PMF Frame) → Frame → PMF (Frame × List Bool)
  | [], F => PMF.pure (F, [])
  | E :: Es, F => (biased p).bind fun b =>
      if b then E.bind fun P => (withErrors p Es (F + P)).map fun x => (x.1, true :: x.2)
      else (withErrors p Es F).map fun x => (x.1, false :: x.2)

/-- Each of the results is flipped with probability `p`: the reported results, and which of them were flipped. -/
noncomputable def withFlips (p : ℝ≥0∞) : List (ZMod 2) → PMF (List (ZMod 2) × List Bool)
  | [] => PMF.pure ([], [])
  | r :: rs => (biased p).bind fun b => (withFlips p rs).map fun x => ((if b then r + 1 else r) :: x.1, b :: x.2)

/-- An instruction: its reported results and the frame after it, and which of its targets and results were hit. -/
noncomputable def Instr.sample (i : Instr) (F : Frame) : PMF ((List (ZMod 2) × Frame) × List Bool) :=
  (withErrors i.chance i.errors F).bind fun x => (sampleActions x.1 i.actions).bind fun y =>
    (withFlips i.chance y.1).map fun z => ((z.1, y.2), x.2 ++ z.2)

/-- A sequence of instructions, executed from frame `F`: the record, and which of all targets and results were hit. -/
noncomputable def sampleCircuit : List Instr → Frame → PMF (List (ZMod 2) × List Bool)
  | [], _ => PMF.pure ([], [])
  | i :: l, F => (i.sample F).bind fun x => (sampleCircuit l x.1.2).map fun y => (x.1.1 ++ y.1, x.2 ++ y.2)

/-- The probability that the record of `l`, executed from frame `F`, has the property `S`. -/
noncomputable def recordProb (l : List Instr) (F : Frame) (S : Set (List (ZMod 2))) : ℝ≥0∞ :=
  ((sampleCircuit l F).map Prod.fst).toOuterMeasure S

/-- The number of places where an instruction can make an error. -/
def Instr.places (i : Instr) : Nat := if i.args = [] then 0 else i.channels.length + i.measures.length

end Honeycomb
