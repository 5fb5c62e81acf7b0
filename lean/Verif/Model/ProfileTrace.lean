import Verif.Model.Profiler

/-!
# Where the program calls the profiler

All calls of `Profile_Begin` and `Profile_End` between `Profile_Start` (main.c:52) and `Profile_Stop` (main.c:274) are in
`TimeFlowMap` (time_flow.c), the two kinds of iterations and `DQMCSimulation` (monte_carlo.c).  This file has the blocks, loops,
branches and parallel sections around these calls, and the sequences of calls which the threads can make with them.

Simplifications: only the calls of the profiler are kept, so a block is a name with what is called inside.  Sections of
`omp parallel sections` without calls of the profiler are left out.  Which thread executes a section is not fixed; different threads
are interleaved in any way, and a thread that executes both sections does so one after the other.  There are no parallel sections
inside of sections.  How many proposals of phonon moves are evaluated (sites without coupling are skipped, monte_carlo.c:246-249,
394-397) is given from outside.
-/

set_option autoImplicit false

namespace Verif.Profiler

open Verif.HashTable

/-- the names of all blocks -/
inductive Blk
  | tfm | firstQR | qr | computeC | dormqr | pivot | dgeqrf | computeDT
  | iter | wraps | siteUpdate | hsUpdate | xUpdate | brecomp | grecomp | eqMeas | accPhonon | phBlock | phFlip
  | uneqMeas
deriving DecidableEq

/-- as written in the source -/
def Blk.text : Blk → String
  | .tfm => "TFM"                              -- time_flow.c:329, 494
  | .firstQR => "TFM_1stQR"                    -- time_flow.c:363, 396
  | .qr => "TFM_QR"                            -- time_flow.c:402, 486
  | .computeC => "TFM_QR_ComputeC"             -- time_flow.c:403, 419
  | .dormqr => "TFM_QR_ComputeC_dormqr"        -- time_flow.c:410, 412
  | .pivot => "TFM_QR_Pivot"                   -- time_flow.c:422, 442
  | .dgeqrf => "TFM_QR_dgeqrf"                 -- time_flow.c:444, 446
  | .computeDT => "TFM_QR_ComputeDandT"        -- time_flow.c:448, 485
  | .iter => "DQMCIter"                        -- monte_carlo.c:35, 177, 500, 723
  | .wraps => "DQMCIter_Wraps"                 -- monte_carlo.c:66, 74, 536, 544
  | .siteUpdate => "DQMCIter_SiteUpdate"       -- monte_carlo.c:77, 111
  | .hsUpdate => "DQMCIter_HSUpdate"           -- monte_carlo.c:549, 583
  | .xUpdate => "DQMCIter_XUpdate"             -- monte_carlo.c:591, 641
  | .brecomp => "DQMCIter_Brecomp"             -- monte_carlo.c:114, 122, 644, 652
  | .grecomp => "DQMCIter_Grecomp"             -- monte_carlo.c:127, 159, 657, 689
  | .eqMeas => "DQMCIter_AccumulateEqMeas"     -- monte_carlo.c:165, 167, 695, 697
  | .accPhonon => "DQMCIter_AccumulatePhonon"  -- monte_carlo.c:700, 702
  | .phBlock => "DQMCIter_PhononBlock"         -- monte_carlo.c:707, 710
  | .phFlip => "DQMCIter_PhononFlip"           -- monte_carlo.c:712, 715
  | .uneqMeas => "DQMCSim_AccumulateUneqMeas"  -- monte_carlo.c:847, 849

/-- the bytes of a name -/
def Blk.key (b : Blk) : Key := b.text.toList.map fun c => UInt8.ofNat c.toNat

/-- code of one thread -/
inductive Sec
  | skip
  | block (b : Blk) (s : Sec)
  | seq (s t : Sec)

/-- code of the main thread -/
inductive Code
  | skip
  | block (b : Blk) (c : Code)
  | seq (c d : Code)
  /-- two parallel sections -/
  | par (s t : Sec)

/-- the calls which a thread makes; the times are arbitrary -/
inductive Sec.Calls (th : ℕ) : Sec → List Event → Prop
  | skip : Sec.Calls th .skip []
  | block {b : Blk} {s : Sec} {evs : List Event} (t t' : BitVec 64) : Sec.Calls th s evs →
      Sec.Calls th (.block b s) (⟨th, .enter, b.key, t⟩ :: (evs ++ [⟨th, .leave, b.key, t'⟩]))
  | seq {s s' : Sec} {x y : List Event} : Sec.Calls th s x → Sec.Calls th s' y → Sec.Calls th (.seq s s') (x ++ y)

/-- a sequence that interleaves two others -/
inductive Merge : List Event → List Event → List Event → Prop
  | nil : Merge [] [] []
  | left {x y z : List Event} (e : Event) : Merge x y z → Merge (e :: x) y (e :: z)
  | right {x y z : List Event} (e : Event) : Merge x y z → Merge x (e :: y) (e :: z)

/-- the calls of all threads; a thread number is an `int` -/
inductive Code.Calls : Code → List Event → Prop
  | skip : Code.Calls .skip []
  | block {b : Blk} {c : Code} {evs : List Event} (t t' : BitVec 64) : Code.Calls c evs →
      Code.Calls (.block b c) (⟨0, .enter, b.key, t⟩ :: (evs ++ [⟨0, .leave, b.key, t'⟩]))
  | seq {c d : Code} {x y : List Event} : Code.Calls c x → Code.Calls d y → Code.Calls (.seq c d) (x ++ y)
  | par {s s' : Sec} {th th' : ℕ} {x y z : List Event} : th < 2 ^ 31 → th' < 2 ^ 31 → th ≠ th' → s.Calls th x → s'.Calls th' y →
      Merge x y z → Code.Calls (.par s s') z
  | one {s s' : Sec} {th : ℕ} {x y : List Event} : th < 2 ^ 31 → s.Calls th x → s'.Calls th y → Code.Calls (.par s s') (x ++ y)
  | other {s s' : Sec} {th : ℕ} {x y : List Event} : th < 2 ^ 31 → s.Calls th x → s'.Calls th y → Code.Calls (.par s s') (y ++ x)

/-- a loop of one thread -/
def Sec.loop (n : ℕ) (f : ℕ → Sec) : Sec :=
  match n with
  | 0 => .skip
  | n + 1 => .seq (Sec.loop n f) (f n)

/-- a loop of the main thread -/
def Code.loop (n : ℕ) (f : ℕ → Code) : Code :=
  match n with
  | 0 => .skip
  | n + 1 => .seq (Code.loop n f) (f n)

/-- a branch -/
def Code.cond (p : Prop) [Decidable p] (c : Code) : Code := if p then c else .skip

/-- `TimeFlowMap` (time_flow.c:327-495) -/
def timeFlowMap (numBprod : ℕ) : Sec :=
  .block .tfm (.seq (.block .firstQR .skip) (Sec.loop (numBprod - 1) fun _ =>
    .block .qr (.seq (.block .computeC (.block .dormqr .skip)) (.seq (.block .pivot .skip)
      (.seq (.block .dgeqrf .skip) (.block .computeDT .skip))))))

/-- both Green's functions (monte_carlo.c:134-140, 287-293, 429-435, 664-670, 802-808); `GreenConstruct` calls `TimeFlowMap` once
(greens_func.c:77) -/
def construct (numBprod : ℕ) : Code := .par (timeFlowMap numBprod) (timeFlowMap numBprod)

/-- what the profiler sees of the parameters -/
structure Shape where
  L : ℕ
  nwraps : ℕ
  numBprod : ℕ
  neqlt : ℕ
  nuneqlt : ℕ
  nequil : ℕ
  usePhonons : Bool
  noHS : Bool

/-- `DQMCIteration` (monte_carlo.c:31-178) -/
def iteration (p : Shape) (neqlt : ℕ) : Code :=
  .block .iter (Code.loop p.L fun l =>
    .seq (.block .wraps .skip) (.seq (.block .siteUpdate .skip) (.seq (.block .brecomp .skip)
      (.seq (Code.cond ((l + 1) % p.nwraps = 0) (.block .grecomp (construct p.numBprod)))
        (Code.cond (0 < neqlt ∧ (l + 1) % neqlt = 0) (.block .eqMeas .skip))))))

/-- `DQMCPhononIteration` (monte_carlo.c:495-724), with the numbers of evaluated proposals of block and flip updates -/
def phononIteration (p : Shape) (neqlt blocks flips : ℕ) : Code :=
  .block .iter (.seq (Code.loop p.L fun l =>
    .seq (.block .wraps .skip) (.seq (Code.cond (p.noHS = false) (.block .hsUpdate .skip)) (.seq (.block .xUpdate .skip)
      (.seq (.block .brecomp .skip)
        (.seq (Code.cond ((l + 1) % p.nwraps = 0) (.block .grecomp (construct p.numBprod)))
          (Code.cond (0 < neqlt ∧ (l + 1) % neqlt = 0) (.seq (.block .eqMeas .skip) (.block .accPhonon .skip))))))))
    (.seq (.block .phBlock (Code.loop blocks fun _ => construct p.numBprod))
      (.block .phFlip (Code.loop flips fun _ => construct p.numBprod))))

/-- one iteration of the main loop (monte_carlo.c:835-850) -/
def mainStep (p : Shape) (blocks flips : ℕ → ℕ) (it : ℕ) : Code :=
  let neqlt := if p.nequil ≤ it then p.neqlt else 0
  .seq (if p.usePhonons then phononIteration p neqlt (blocks it) (flips it) else iteration p neqlt)
    (Code.cond (p.nequil ≤ it ∧ 0 < p.nuneqlt ∧ it % p.nuneqlt = 0) (.block .uneqMeas .skip))

/-- `DQMCSimulation` (monte_carlo.c:802-855): `n` iterations beginning with number `it0` -/
def simulation (p : Shape) (blocks flips : ℕ → ℕ) (it0 n : ℕ) : Code :=
  .seq (construct p.numBprod) (Code.loop n fun k => mainStep p blocks flips (it0 + k))

end Verif.Profiler
