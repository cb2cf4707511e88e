import Verif.Model.NoDup
import Verif.Model.Print
import Verif.Model.Psp
import Verif.Model.Srflp
import Verif.Model.Text
import Verif.Model.Tsptw
/-!
Model of the programs `srflp`, `psp` and `tsptw` (`examples/*/main.rs`) and of their arguments (`src/xputils.rs:22-39`).

The arguments are split into options and values by the library `structopt`; here the value of an option is given, if it is present.  Opening the file and reading its bytes are left out, and so is the
clock: the question whether the time is over (`src/xputils.rs:95`) may be answered in any way.
-/
set_option autoImplicit false

namespace Verif.Program

/-- The names of the options (`src/xputils.rs:22-39`): `-f`, `-w`, `-t`, `-T`, `-s`, `-c` -/
inductive Key | file | width | timeout | threads | solver | cutset
deriving DecidableEq, Repr

/-- `Args::Solve` (`src/xputils.rs:24-37`) -/
structure Options where
  file : List Char
  width : Option Nat
  timeout : Nat
  threads : Option Nat
  solver : SolverType
  cutset : CutsetType
deriving DecidableEq, Repr

/-- An option of type `Option<usize>`: it may be missing, but not be malformed -/
def optional (v : Option (List Char)) : Option (Option Nat) :=
  match v with
  | none => some none
  | some w => (Text.parseNat Text.usizeMax w).map some

/-- `src/xputils.rs:22-39` with the default values; `none`: an error message is printed. -/
def options (value : Key → Option (List Char)) : Option Options :=
  match value .file, optional (value .width), Text.parseNat Text.usizeMax ((value .timeout).getD "60".toList), optional (value .threads),
    SolverType.fromStr (String.ofList ((value .solver).getD "parallel".toList)), CutsetType.fromStr (String.ofList ((value .cutset).getD "lel".toList)) with
  | some file, some width, some timeout, some threads, some solver, some cutset => some ⟨file, width, timeout, threads, solver, cutset⟩
  | _, _, _, _, _, _ => none

/-- `Path::file_name` of the standard library, on Unix: the last component of a path; empty components and `.` do not count, and `..` is not a name. -/
def fileName (path : List Char) : Option (List Char) :=
  match ((Text.split (fun c => c == '/') path).filter fun c => !(c.isEmpty || c == ['.'])).getLast? with
  | none => none
  | some f => if f = ['.', '.'] then none else some f

/-- `Path::file_stem` of the standard library for a name: what comes before the last dot, unless this is nothing -/
def stem (f : List Char) : List Char :=
  match f.reverse.dropWhile fun c => c != '.' with
  | [] => f
  | _ :: b => if b.isEmpty then f else b.reverse

/-- The name under which the run is listed (`examples/srflp/main.rs:44-47`, `examples/psp/main.rs:39-42`, `examples/tsptw/main.rs:44-47`) -/
def runName (path : List Char) : List Char :=
  match fileName path with
  | none => "-- unknown --".toList
  | some f => stem f

/-- The solver of the program `srflp` (`examples/srflp/main.rs:34-63`, `src/xputils.rs:86-95`); `cpus` is `num_cpus::get()`. -/
def srflp (o : Options) (cpus : Nat) (I : Srflp.Inst) : SolverCfg Srflp.State :=
  { p := Srflp.problem I
    r := Srflp.relaxation I
    rank := Srflp.rank
    width := Srflp.width I.n (o.width.getD 1)
    cutset := o.cutset
    fr := noDupOps Srflp.rank
    custom := o.threads.getD cpus
    nbThreads := o.threads.getD cpus }

/-- The solver of the program `psp` (`examples/psp/main.rs:28-54`, `src/xputils.rs:86-95`); `σ` is the order in which edges of equal weight are sorted. -/
def psp (o : Options) (cpus : Nat) (I : Psp.Inst) (σ : List Psp.Edge → List Psp.Edge) : SolverCfg Psp.State :=
  { p := Psp.problem I σ
    r := Psp.relaxation
    rank := Psp.rank
    width := Psp.width I.periods (o.width.getD 1)
    cutset := o.cutset
    fr := noDupOps Psp.rank
    custom := o.threads.getD cpus
    nbThreads := o.threads.getD cpus }

/-- The solver of the program `tsptw` (`examples/tsptw/main.rs:34-61`, `src/xputils.rs:86-95`) -/
def tsptw (o : Options) (cpus : Nat) (I : Tsptw.Inst) : SolverCfg Tsptw.State :=
  { p := Tsptw.problem I
    r := Tsptw.relaxation I
    rank := Tsptw.rank
    width := Tsptw.width I.n (o.width.getD 1)
    cutset := o.cutset
    fr := noDupOps Tsptw.rank
    custom := o.threads.getD cpus
    nbThreads := o.threads.getD cpus }

variable {σ : Type} [DecidableEq σ] [Inhabited σ]

/-- What is printed when the solver is in the state `s` after `maximize_with_interrupt` (`src/xputils.rs:97-121`); `none` is a panic. -/
def parallelLine (cfg : SolverCfg σ) (name : List Char) (time ram : Nat × Nat) (s : Sys σ cfg.fr.F) : Option (List Char) :=
  (Par.report cfg s).map (Print.line name .parallel time ram)

/-- The same for the solver with barriers (`src/xputils.rs:139-163`) -/
def barrierLine (cfg : SolverCfg σ) (name : List Char) (time ram : Nat × Nat) (s : BSys σ cfg.fr.F) : Option (List Char) :=
  (Bar.report cfg s).map (Print.line name .barrier time ram)

end Verif.Program
