import Verif.Model.Config

/-!
# Reading `input.ini`: readin.c

Texts are lists of characters (bytes). `fopen` is assumed to succeed and lines to fit into memory. The library functions
`getline`, `strstr`, `strcpy`, `strtok`, `sscanf`, `atof` are written out for the formats that the program uses, in the
"C" locale. Of the number formats of `strtod`, decimal numbers are written out; infinities, NaNs and hexadecimal numbers
are left to an arbitrary function `other`.
-/

namespace NiiC

/-- Characters of a text. -/
abbrev Str := List Char

/-- A string constant as an explicit list of characters. -/
macro "c!" s:str : term => do
  let cs : Array (Lean.TSyntax `term) := (s.getString.toList.map fun c => Lean.quote c).toArray
  `(([$cs,*] : List Char))

/-! ## libc -/

/-- `isspace` -/
def isSpace (c : Char) : Bool := c == ' ' || c == '\t' || c == '\n' || c == '\x0b' || c == '\x0c' || c == '\r'

/-- `isdigit` -/
def isDigit (c : Char) : Bool := c == '0' || c == '1' || c == '2' || c == '3' || c == '4' || c == '5' || c == '6' || c == '7' ||
  c == '8' || c == '9'

/-- The value of a digit. -/
def digitVal (c : Char) : Nat := c.toNat - 48

/-- The lines that successive calls of `getline` return: up to and including a newline, the last one possibly without. -/
def getlines : Str → List Str
  | [] => []
  | c :: cs =>
    if c = '\n' then ['\n'] :: getlines cs
    else match getlines cs with
      | [] => [[c]]
      | l :: ls => (c :: l) :: ls

/-- The C string that starts at a buffer: up to the first null byte. -/
def cstr (s : Str) : Str := s.takeWhile (· ≠ '\x00')

/-- `strstr(hay, needle) != NULL` -/
def strstr (needle : Str) : Str → Bool
  | [] => needle.isEmpty
  | c :: t => needle.isPrefixOf (c :: t) || strstr needle t

/-- `strtok(NULL, delims)` repeated until it returns NULL, with `s` the rest of the string: the maximal runs of characters
outside `delims`. -/
def tokens (delims : Str) : Str → List Str
  | [] => []
  | c :: cs =>
    if c ∈ delims then tokens delims cs
    else match cs with
      | [] => [[c]]
      | d :: _ => if d ∈ delims then [c] :: tokens delims cs
        else match tokens delims cs with
          | [] => [[c]]
          | t :: ts => (c :: t) :: ts

/-- The rest of the string after `strtok(s, ":")`: leading colons and the first run of other characters are passed over, and
the colon that ends the run (which has been replaced by a null byte); empty when there is none. -/
def afterColon (s : Str) : Str := ((s.dropWhile (· = ':')).dropWhile (· ≠ ':')).drop 1

/-- Decimal digits at the front. -/
def spanDigits (s : Str) : Str × Str := (s.takeWhile isDigit, s.dropWhile isDigit)

/-- The number written by digits. -/
def natOf (ds : Str) : Nat := ds.foldl (fun a c => 10 * a + digitVal c) 0

/-- An optional sign: whether it is negative, and the rest. -/
def scanSign : Str → Bool × Str
  | '-' :: s => (true, s)
  | '+' :: s => (false, s)
  | s => (false, s)

/-- Apply a sign. -/
def signed (neg : Bool) (m : Nat) : Int := if neg then -(m : Int) else m

/-- `%[^:]:` of `sscanf`: a non-empty run of characters other than a colon, and a colon. The rest, or `none` when the input
does not match. -/
def scanKey (s : Str) : Option Str :=
  match s.takeWhile (· ≠ ':'), s.dropWhile (· ≠ ':') with
  | _ :: _, _ :: rest => some rest
  | _, _ => none

/-- `%d` and `%u` of `sscanf`: white space, an optional sign, digits. The number written, not yet stored. -/
def scanInt (s : Str) : Option Int :=
  let p := scanSign (s.dropWhile isSpace)
  match (spanDigits p.2).1 with
  | [] => none
  | d :: ds => some (signed p.1 (natOf (d :: ds)))

/-- `%s` of `sscanf`: white space, a non-empty run of other characters. -/
def scanStr (s : Str) : Option Str :=
  match (s.dropWhile isSpace).takeWhile (fun c => !isSpace c) with
  | [] => none
  | c :: cs => some (c :: cs)

/-- A decimal number: mantissa times a power of ten. -/
structure Dec where
  m : Int
  e : Int
  deriving DecidableEq

/-- The `double` that `strtod` makes of it (a constant of the arithmetic, rounded as the compiler rounds constants). -/
def Dec.val {F : Type} [Arith F] (d : Dec) : F :=
  if 0 ≤ d.e then Arith.lit (d.m * 10 ^ d.e.toNat) 1 else Arith.lit d.m (10 ^ (-d.e).toNat)

/-- Digits with an optional decimal point and at least one digit: the digits' value, the number of decimals, the rest. -/
def scanMant (s : Str) : Option (Nat × Nat × Str) :=
  let p := spanDigits s
  match p.2 with
  | '.' :: s' =>
    let q := spanDigits s'
    if p.1.isEmpty && q.1.isEmpty then none else some (natOf (p.1 ++ q.1), q.1.length, q.2)
  | s' => if p.1.isEmpty then none else some (natOf p.1, 0, s')

/-- The exponent: its value, 0 when there is none, `none` when it is begun but has no digits. -/
def scanExp : Str → Option Int
  | 'e' :: s => exponent s
  | 'E' :: s => exponent s
  | _ => some 0
where
  exponent (s : Str) : Option Int :=
    let p := scanSign s
    match (spanDigits p.2).1 with
    | [] => none
    | d :: ds => some (signed p.1 (natOf (d :: ds)))

/-- The text is an infinity, a NaN or a hexadecimal number as far as its first characters tell. -/
def special : Str → Bool
  | 'i' :: _ => true
  | 'I' :: _ => true
  | 'n' :: _ => true
  | 'N' :: _ => true
  | '0' :: 'x' :: _ => true
  | '0' :: 'X' :: _ => true
  | _ => false

/-- The value of sign, mantissa with decimals, exponent. -/
def decOf (neg : Bool) (m k : Nat) (e : Int) : Dec := ⟨signed neg m, e - k⟩

section
variable {F : Type} [Arith F]

/-- `%lf` of `sscanf`. An exponent without digits is a matching failure. -/
def scanLf (other : Str → Option F) (s : Str) : Option F :=
  let t := s.dropWhile isSpace
  let p := scanSign t
  if special p.2 then other t
  else match scanMant p.2 with
    | none => none
    | some (m, k, r) => match scanExp r with
      | none => none
      | some e => some (decOf p.1 m k e).val

/-- `atof`. An exponent without digits is not part of the number; text that is no number gives 0. -/
def atof (other : Str → Option F) (s : Str) : F :=
  let t := s.dropWhile isSpace
  let p := scanSign t
  if special p.2 then (other t).getD (Arith.lit 0 1)
  else match scanMant p.2 with
    | none => Arith.lit 0 1
    | some (m, k, r) => (decOf p.1 m k ((scanExp r).getD 0)).val

/-! ## readin.c -/

/-- `DEST_SIZE`, readin.c:8. -/
def destSize : Nat := 100

/-- The loop of `read_onepara`, readin.c:108-115: number of lines found, and the buffer `para_line` after the `strcpy`s.
A line that does not fit (with its null byte) overruns the buffer. -/
def findLines (name : Str) : List Str → Nat → Option Str → Except Fault (Nat × Option Str)
  | [], found, buf => .ok (found, buf)
  | l :: ls, found, buf =>
    if strstr name (cstr l) then
      if (cstr l).length + 1 ≤ destSize then findLines name ls (found + 1) (some (cstr l)) else .error .oob
    else findLines name ls found buf

/-- `read_onepara`, readin.c:87-136; `none` is NULL. -/
def readOnepara (text name : Str) : Except Fault (Option Str) := do
  let (found, buf) ← findLines name (getlines text) 0 none
  if found > 1 then .ok none
  else if found = 0 then .ok none
  else .ok buf

/-- The line of a parameter passed on to `sscanf` or `strtok`, which dereference it. -/
def paraLine (text name : Str) : Except Fault Str := do
  match ← readOnepara text name with
  | none => .error .null
  | some l => .ok l

/-- `sscanf(para_line, "%[^:]:%d", dummy, &var)` with `var` zero before; a value outside `int` is undefined behaviour. -/
def readInt (text name : Str) : Except Fault Int := do
  let l ← paraLine text name
  match (scanKey l).bind scanInt with
  | none => .ok 0
  | some v => i32 v

/-- What `%u` stores for a written integer: the value modulo 2^32 (as `strtoul` negates in the unsigned type); a magnitude
outside `unsigned` is undefined behaviour. -/
def storeU (v : Int) : Except Fault Nat :=
  if -4294967296 < v ∧ v < 4294967296 then .ok (v % 4294967296).toNat else .error .overflow

/-- `sscanf(para_line, "%[^:]:%u", dummy, &var)` with `var` zero before. -/
def readUns (text name : Str) : Except Fault Nat := do
  let l ← paraLine text name
  match (scanKey l).bind scanInt with
  | none => .ok 0
  | some v => storeU v

/-- `sscanf(para_line, "%[^:]:%lf", dummy, &var)` with `var` zero before. -/
def readDbl (other : Str → Option F) (text name : Str) : Except Fault F := do
  let l ← paraLine text name
  match (scanKey l).bind (scanLf other) with
  | none => .ok (Arith.lit 0 1)
  | some v => .ok v

/-- `sscanf(para_line, "%[^:]:%s", dummy, var)`; `none` is a buffer that was never written. -/
def readStr (text name : Str) : Except Fault (Option Str) := do
  let l ← paraLine text name
  .ok ((scanKey l).bind scanStr)

/-- `read_beta_values`, readin.c:265-303: the table, or NULL when the number of values is not `N_beta`. A value too many is
written behind the table. -/
def readBetas (other : Str → Option F) (text : Str) (nBeta : Int) : Except Fault (Option (List F)) := do
  let l ← paraLine text (c!"Beta_Values")
  let ts := tokens (c!",") (afterColon l)
  if (ts.length : Int) > nBeta then .error .oob
  else if (ts.length : Int) = nBeta then .ok (some (ts.map (atof other)))
  else .ok none

/-- The global variables of readin.c:11-62 after reading. -/
structure Raw (F : Type) where
  nParm : Int
  nIter : Int
  nStoptune : Int
  nBegintune : Int
  tuneLadder : Int
  nStopTuneLadder : Int
  scaleLadder : F
  zeroStretch : F
  nBeta : Int
  foutLen : Int
  foutPre : Option Str
  foutSuf : Option Str
  resultsDir : Option Str
  betas : Option (List F)
  dataFile : Option Str
  ndim : Int
  delimiter : Str
  initGpRatio : F
  initSeed : Nat
  saveBegin : Nat
  nStack : Int
  base : Int
  rand : Int
  nIterInTune : Int
  arLower : F
  arUpper : F
  arBest : F
  arAcceptDiff : F
  halfRatio : F
  scaleMin : F
  scaleMax : F
  jumpin : F
  nSwap : Int
  swapmode : Int

/-- `Delimiter`, readin.c:249-256: the word `blank` stands for a space; the comparison reads the buffer. -/
def readDelimiter (text : Str) : Except Fault Str := do
  match ← readStr text (c!"Delimiter") with
  | none => .error .uninit
  | some d => .ok (if d = (c!"blank") then [' '] else d)

/-- `read_input_ini`, readin.c:408-420, with `read_chains_grid` 141-190, `read_chain_out_name` 192-224, `read_beta_values`
265-303, `read_data_desc` 230-261, `read_sampling_para` 306-386, in the order of the calls. -/
def readInput (other : Str → Option F) (text : Str) : Except Fault (Raw F) := do
  let nParm ← readInt text (c!"N_parm")
  let nIter ← readInt text (c!"N_iter")
  let nStoptune ← readInt text (c!"N_stoptune")
  let nBegintune ← readInt text (c!"N_begintune")
  let tuneLadder ← readInt text (c!"Tune_Ladder")
  let nStopTuneLadder ← readInt text (c!"N_stopTuneLadder")
  let scaleLadder ← readDbl other text (c!"scale_tune_ladder")
  let zeroStretch ← readDbl other text (c!"zero_stretch")
  let nBeta ← readInt text (c!"N_beta")
  let foutLen ← readInt text (c!"Fout_Len")
  let foutPre ← readStr text (c!"FoutPre")
  let foutSuf ← readStr text (c!"FoutSuf")
  let resultsDir ← readStr text (c!"results_dir")
  let betas ← readBetas other text nBeta
  let dataFile ← readStr text (c!"Data_file")
  let ndim ← readInt text (c!"ndim_data")
  let delimiter ← readDelimiter text
  let initGpRatio ← readDbl other text (c!"init_gp_ratio")
  let initSeed ← readUns text (c!"init_rand_seed")
  let saveBegin ← readUns text (c!"i_save_begin")
  let nStack ← readInt text (c!"n_iter_a_stack")
  let base ← readInt text (c!"n_iter_a_batch_base")
  let rand ← readInt text (c!"n_iter_a_batch_rand")
  let nIterInTune ← readInt text (c!"n_iter_in_tune")
  let arLower ← readDbl other text (c!"ar_ok_lower")
  let arUpper ← readDbl other text (c!"ar_ok_upper")
  let arBest ← readDbl other text (c!"ar_best")
  let arAcceptDiff ← readDbl other text (c!"ar_accept_diff")
  let halfRatio ← readDbl other text (c!"sigma_scale_half_ratio")
  let scaleMin ← readDbl other text (c!"sigma_scale_min")
  let scaleMax ← readDbl other text (c!"sigma_scale_max")
  let jumpin ← readDbl other text (c!"sigma_jumpin_ratio")
  let nSwap ← readInt text (c!"N_swap")
  let swapmode ← readInt text (c!"Swapmode")
  .ok { nParm, nIter, nStoptune, nBegintune, tuneLadder, nStopTuneLadder, scaleLadder, zeroStretch, nBeta, foutLen, foutPre, foutSuf, resultsDir,
        betas, dataFile, ndim, delimiter, initGpRatio, initSeed, saveBegin, nStack, base, rand, nIterInTune, arLower, arUpper, arBest,
        arAcceptDiff, halfRatio, scaleMin, scaleMax, jumpin, nSwap, swapmode }

/-- The part of the globals that the sampler uses, with the user's functions and width ranges. A null `Beta_Values` is an
empty table: its first use is out of bounds. -/
def Raw.cfg (raw : Raw F) (user : User F) (sigmaMin sigmaMax : List F) : Cfg F where
  nParm := raw.nParm.toNat
  nIter := raw.nIter
  nStack := raw.nStack
  base := raw.base
  rand := raw.rand
  nSwap := raw.nSwap
  swapmode := raw.swapmode
  nBegintune := raw.nBegintune
  nStoptune := raw.nStoptune
  tuneLadder := raw.tuneLadder
  nStopTuneLadder := raw.nStopTuneLadder
  nIterInTune := raw.nIterInTune
  saveBegin := raw.saveBegin
  initSeed := raw.initSeed
  arLower := raw.arLower
  arUpper := raw.arUpper
  arBest := raw.arBest
  arAcceptDiff := raw.arAcceptDiff
  halfRatio := raw.halfRatio
  jumpin := raw.jumpin
  initGpRatio := raw.initGpRatio
  scaleLadder := raw.scaleLadder
  zeroStretch := raw.zeroStretch
  betas := raw.betas.getD []
  sigmaMin := sigmaMin
  sigmaMax := sigmaMax
  user := user

end

end NiiC
