import Verif.Model.HashTable

set_option autoImplicit false

/-!
# Model of `src/param_parser.c` and `include/sim_params.h`

`double` is an arbitrary type `F` with a zero; the decimal conversions `atoi`, `atoll`, `atof` of the
C library are parameters (`Conv`).
-/

namespace Verif.Params

open Verif.HashTable (Key Table)

/-- `bond_hoppings_t` (sim_params.h): arrays indexed by `o + p*Norb` -/
structure Hoppings (F : Type) where
  aa : ℤ → F
  ab : ℤ → F
  ac : ℤ → F
  ad : ℤ → F
  bc : ℤ → F

/-- `phonon_params_t` (sim_params.h) -/
structure PhononParams (F : Type) where
  omega : ℤ → F
  g : ℤ → F
  localBoxWidth : F
  nLocalUpdates : ℤ
  blockBoxWidth : F
  nBlockUpdates : ℤ

/-- `sim_params_t` (sim_params.h) -/
structure SimParams (F : Type) where
  Norb : ℤ
  Nx : ℤ
  Ny : ℤ
  pbcShift : ℤ
  t : Hoppings F
  U : ℤ → F
  eps : ℤ → F
  mu : F
  usePhonons : Bool
  phonon : PhononParams F
  dt : F
  L : ℤ
  prodBlen : ℤ
  nwraps : ℤ
  nequil : ℤ
  nsampl : ℤ
  neqlt : ℤ
  nuneqlt : ℤ
  itime : BitVec 64
  maxTime : ℤ

/-- a token: a C string -/
abbrev Token := Key

/-- C library conversions -/
structure Conv (F : Type) where
  atoi : Token → ℤ
  atoll : Token → ℤ
  atof : Token → F

variable {F : Type}

/-! ## Reading the file -/

/-- delimiters `" =:,;\t\r\n"` (param_parser.c:178) -/
def isDelim (c : UInt8) : Bool :=
  c == 32 || c == 61 || c == 58 || c == 44 || c == 59 || c == 9 || c == 13 || c == 10

/-- `fgets(line, n + 1, fd)`: reads at most `n` characters, stops after a newline.  The characters
read and the rest of the file. -/
def fgets : ℕ → List UInt8 → List UInt8 × List UInt8
  | 0, rest => ([], rest)
  | _ + 1, [] => ([], [])
  | n + 1, c :: cs =>
    if c = 10 then ([c], cs)
    else
      let r := fgets n cs
      (c :: r.1, r.2)

theorem fgets_snd_length (n : ℕ) (f : List UInt8) :
    (fgets n f).1.length + (fgets n f).2.length = f.length := by
  induction n generalizing f with
  | zero => simp [fgets]
  | succ n ih =>
    cases f with
    | nil => simp [fgets]
    | cons c cs =>
      simp only [fgets]
      split
      · simp only [List.length_cons, List.length_nil]; omega
      · have := ih cs
        simp only [List.length_cons]; omega

theorem fgets_fst_pos (n : ℕ) (c : UInt8) (cs : List UInt8) : 0 < (fgets (n + 1) (c :: cs)).1.length := by
  simp only [fgets]; split <;> simp

/-- the loop `while (fgets(line, sizeof(line), fd) != NULL)` (param_parser.c:166-167) with
`sizeof(line) = 1024`: the successive contents of the buffer -/
def readLines : List UInt8 → List (List UInt8)
  | [] => []
  | c :: cs =>
    have : (fgets 1023 (c :: cs)).2.length < (c :: cs).length := by
      have h1 := fgets_snd_length 1023 (c :: cs)
      have h2 : 0 < (fgets 1023 (c :: cs)).1.length := fgets_fst_pos 1022 c cs
      omega
    (fgets 1023 (c :: cs)).1 :: readLines (fgets 1023 (c :: cs)).2
termination_by f => f.length

/-- the C string in the buffer: everything before the first zero byte -/
def cstr (buf : List UInt8) : List UInt8 := buf.takeWhile (fun c => c != 0)

/-- replace `'#'` by the end of the string (param_parser.c:170-175) -/
def stripComment (line : List UInt8) : List UInt8 := line.takeWhile (fun c => c != 35)

/-- successive results of `strtok` (param_parser.c:181, 189): skip delimiters, then take the
characters up to the next delimiter.  `cur` holds the characters of the current token. -/
def strtokAll : List UInt8 → Token → List Token
  | [], cur => if cur = [] then [] else [cur]
  | c :: cs, cur =>
    if isDelim c then (if cur = [] then strtokAll cs [] else cur :: strtokAll cs [])
    else strtokAll cs (cur ++ [c])

/-- tokens of one buffer content (param_parser.c:169-192).  The local `value.str` has room for
1024 pointers; a buffer of 1023 characters has at most 512 tokens, so it cannot overflow. -/
def lineTokens (buf : List UInt8) : List Token := strtokAll (stripComment (cstr buf)) []

/-- `AppendValues` (param_parser.c:55-65): `none` is the write beyond `str[1023]` (the assertion on
line 60 is compiled out) -/
def appendValues (list ap : List Token) : Option (List Token) :=
  if list.length + ap.length ≤ 1024 then some (list ++ ap) else none

/-- processing of one line (param_parser.c:169-211); `none` is a buffer overflow.  In C the list of
an existing entry is modified in place; this is modelled as storing the longer list under the name. -/
def addLine (t : Table (List Token)) (buf : List UInt8) : Option (Table (List Token)) :=
  match lineTokens buf with
  | [] => some t
  | [_] => some t
  | name :: v :: vs =>
    match HashTable.get t name with
    | none => (appendValues [] (v :: vs)).map fun l => (HashTable.insert t name l).1
    | some prev => (appendValues prev (v :: vs)).map fun l => (HashTable.insert t name l).1

/-- the hash table after reading the file (param_parser.c:161-212) -/
def readTable (file : List UInt8) : Option (Table (List Token)) :=
  (readLines file).foldlM addLine (HashTable.allocate 64)

/-! ## Interpreting the table -/

/-- loop of `ReadHoppings` (param_parser.c:108-123), `list` has a length divisible by 3 -/
def readHopLoop (cv : Conv F) (Norb : ℤ) : List Token → (ℤ → F) → ℤ × (ℤ → F)
  | a :: b :: v :: rest, t =>
    let a := cv.atoi a
    let b := cv.atoi b
    if a < 0 ∨ a ≥ Norb ∨ b < 0 ∨ b ≥ Norb then (-2, t)
    else readHopLoop cv Norb rest (Function.update t (a + Norb * b) (cv.atof v))
  | _, t => (0, t)

/-- `ReadHoppings` (param_parser.c:100-124): status and array -/
def readHoppings (cv : Conv F) (Norb : ℤ) (list : List Token) (t : ℤ → F) : ℤ × (ℤ → F) :=
  if list.length % 3 ≠ 0 then (-1, t) else readHopLoop cv Norb list t

/-- `ReadList` (param_parser.c:131-146): status and array -/
def readList (cv : Conv F) (Norb : ℤ) (list : List Token) (a : ℤ → F) : ℤ × (ℤ → F) :=
  if (list.length : ℤ) ≠ Norb then (-1, a)
  else (0, fun k => if h : 0 ≤ k ∧ k.toNat < list.length then cv.atof (list[k.toNat]'h.2) else a k)

/-- ASCII name as a key -/
def nm (s : String) : Key := s.toList.map fun c => UInt8.ofNat c.toNat

/-- `AllocateSimulationParameters` (param_parser.c:361-371): arrays are zero-initialised -/
def allocateParams [Zero F] (Norb : ℤ) (p : SimParams F) : SimParams F :=
  { p with
    Norb := Norb
    t := ⟨fun _ => 0, fun _ => 0, fun _ => 0, fun _ => 0, fun _ => 0⟩
    U := fun _ => 0
    eps := fun _ => 0
    phonon := { p.phonon with omega := fun _ => 0, g := fun _ => 0 } }

/-- `value->str[0]`; the table only contains non-empty lists (theorem `readTable_spec`) -/
def first (v : List Token) : Token := v.headD []

/-- the update of `use_phonons` (param_parser.c:301-314) -/
def readBool (v : Option (List Token)) (old : Bool) : Bool :=
  match v with
  | none => old
  | some l =>
    if first l = nm "true" ∨ first l = nm "1" then true
    else if first l = nm "false" ∨ first l = nm "0" then false
    else old

/-- optional scalar parameter: `if ((value = HashTableGet(..)) != NULL) { field = conv(str[0]); }` -/
def scalar {β : Type} (v : Option (List Token)) (conv : Token → β) (old : β) : β :=
  match v with
  | none => old
  | some l => conv (first l)

/-- optional list parameter: status and array -/
def optList (v : Option (List Token)) (rd : List Token → (ℤ → F) → ℤ × (ℤ → F)) (old : ℤ → F) :
    ℤ × (ℤ → F) :=
  match v with
  | none => (0, old)
  | some l => rd l old

/-- second half of `ParseParameterFile` (param_parser.c:216-353); `get` is `HashTableGet` on the
table.  Returns the status and the new parameters. -/
def interpret [Zero F] (cv : Conv F) (get : Key → Option (List Token)) (p : SimParams F) :
    ℤ × SimParams F :=
  match get (nm "Norb") with
  | none => (-2, p)
  | some l =>
    let Norb := cv.atoi (first l)
    if Norb ≤ 0 then (-2, p) else
    let p := allocateParams Norb p
    let p := { p with Nx := scalar (get (nm "Nx")) cv.atoi p.Nx }
    let p := { p with Ny := scalar (get (nm "Ny")) cv.atoi p.Ny }
    let p := { p with pbcShift := scalar (get (nm "pbc_shift")) cv.atoi p.pbcShift }
    let r := optList (get (nm "t_aa")) (readHoppings cv Norb) p.t.aa
    let p := { p with t := { p.t with aa := r.2 } }
    if r.1 ≠ 0 then (-3, p) else
    let r := optList (get (nm "t_ab")) (readHoppings cv Norb) p.t.ab
    let p := { p with t := { p.t with ab := r.2 } }
    if r.1 ≠ 0 then (-3, p) else
    let r := optList (get (nm "t_ac")) (readHoppings cv Norb) p.t.ac
    let p := { p with t := { p.t with ac := r.2 } }
    if r.1 ≠ 0 then (-3, p) else
    let r := optList (get (nm "t_ad")) (readHoppings cv Norb) p.t.ad
    let p := { p with t := { p.t with ad := r.2 } }
    if r.1 ≠ 0 then (-3, p) else
    let r := optList (get (nm "t_bc")) (readHoppings cv Norb) p.t.bc
    let p := { p with t := { p.t with bc := r.2 } }
    if r.1 ≠ 0 then (-3, p) else
    let r := optList (get (nm "U")) (readList cv Norb) p.U
    let p := { p with U := r.2 }
    if r.1 ≠ 0 then (-3, p) else
    let r := optList (get (nm "eps")) (readList cv Norb) p.eps
    let p := { p with eps := r.2 }
    if r.1 ≠ 0 then (-3, p) else
    let p := { p with mu := scalar (get (nm "mu")) cv.atof p.mu }
    let p := { p with usePhonons := readBool (get (nm "use_phonons")) p.usePhonons }
    let r := optList (get (nm "phonon_omega")) (readList cv Norb) p.phonon.omega
    let p := { p with phonon := { p.phonon with omega := r.2 } }
    if r.1 ≠ 0 then (-3, p) else
    let r := optList (get (nm "phonon_g")) (readList cv Norb) p.phonon.g
    let p := { p with phonon := { p.phonon with g := r.2 } }
    if r.1 ≠ 0 then (-3, p) else
    let p := { p with phonon := { p.phonon with
      localBoxWidth := scalar (get (nm "phonon_local_box_width")) cv.atof p.phonon.localBoxWidth
      nLocalUpdates := scalar (get (nm "phonon_n_local_updates")) cv.atoi p.phonon.nLocalUpdates
      blockBoxWidth := scalar (get (nm "phonon_block_box_width")) cv.atof p.phonon.blockBoxWidth
      nBlockUpdates := scalar (get (nm "phonon_n_block_updates")) cv.atoi p.phonon.nBlockUpdates } }
    let p := { p with
      dt := scalar (get (nm "dt")) cv.atof p.dt
      L := scalar (get (nm "L")) cv.atoi p.L
      prodBlen := scalar (get (nm "prodBlen")) cv.atoi p.prodBlen
      nwraps := scalar (get (nm "nwraps")) cv.atoi p.nwraps
      nequil := scalar (get (nm "nequil")) cv.atoi p.nequil
      nsampl := scalar (get (nm "nsampl")) cv.atoi p.nsampl }
    let p := { p with
      neqlt := scalar (get (nm "neqlt")) cv.atoi p.L
      nuneqlt := scalar (get (nm "nuneqlt")) cv.atoi p.nuneqlt
      itime := scalar (get (nm "itime")) (fun s => BitVec.ofInt 64 (cv.atoll s)) p.itime
      maxTime := scalar (get (nm "max_time")) cv.atoi p.maxTime }
    (0, p)

/-- `ParseParameterFile` (param_parser.c:153-354): `file = none` when it cannot be opened; the
result is `none` on a buffer overflow. -/
def parse [Zero F] (cv : Conv F) (file : Option (List UInt8)) (p : SimParams F) :
    Option (ℤ × SimParams F) :=
  match file with
  | none => some (-1, p)
  | some f => (readTable f).map fun t => interpret cv (HashTable.get t) p

/-! ## Validation -/

/-- `ValidateSimulationParameters` (param_parser.c:393-461) -/
def validate [Zero F] [DecidableEq F] (p : SimParams F) : ℤ :=
  if p.Norb ≤ 0 then -1
  else if p.Nx ≤ 0 ∨ p.Ny ≤ 0 then -1
  else if (List.range p.Norb.toNat).any (fun i =>
      p.t.aa (i + i * p.Norb) ≠ 0 ||
      -- `for (j = i + 1; j < Norb; j++)`
      (List.range (p.Norb.toNat - (i + 1))).any fun k =>
        let j : ℤ := (i : ℤ) + 1 + k
        (p.t.aa (i + j * p.Norb) ≠ 0 && p.t.aa (j + i * p.Norb) ≠ 0)) then -1
  else if p.L ≤ 0 then -1
  else if p.prodBlen ≤ 0 then -1
  else if p.L.tmod p.prodBlen ≠ 0 ∨ p.L.tdiv p.prodBlen ≤ 0 then -1
  else if p.nwraps.tmod p.prodBlen ≠ 0 ∨ p.nwraps.tdiv p.prodBlen ≤ 0 then -1
  else if p.itime = 0#64 then -1
  else 0

end Verif.Params
