# Formal model of ethz-asl/schweizer_messer — design

All models and proofs are Lean 4 (4.33.0) under `lean/Verif/`, built by `lake build`
in `lean/`.  Each area has a *model* file (definitions transcribing C++ functions,
each with a file:line citation), a *lemma* section/file and a `…Props.lean` file with
the property theorems, the small independent specification used to state them, and an
`example` showing a concrete instance of the hypotheses.

## Plan per property

| Property | What is modelled | How it is proved |
|---|---|---|
| C01–C07 | `JobQueue` as a small-step interleaving machine: shared queue, flags, mutex, the two condition variables with their sets of sleeping threads, one program counter per worker / client | inductive invariants over reachable states; negations by explicit executions for C05, C06 |
| C08, C09 | `Id` over `BitVec 64` | order lemmas, `BitVec` arithmetic, injectivity of n-fold increment |
| C10–C12 | `HashId` as 16 bytes / 2 little-endian words, incl. the exact `strtoul` prefix grammar used by `stoul` | round trip, characterisation of the accepted strings; negation of the strict claim by witness |
| C13, C14, C15, C41 | comparisons, quadratic solver, rounding, time string over exact reals/rationals (no floating point) | algebra |
| C16–C18 | string routines on `List Char`; loops as fuelled iteration with a separate termination theorem | induction, witnesses for non-termination |
| C19–C24 | `MatrixArchive`: two sorted name maps, the byte stream writer/reader incl. 32-bit truncation, short reads as an explicit `ub` outcome | parser/printer round trip, map refinement, invariants over histories, negations by witness (C22, C23) |
| C25 | key qualification on strings | string lemmas |
| C26–C28 | boost ptree as rose tree with ordered children; `put`, `get_child`, `update` | structural induction |
| C29 | `loadString` translator | balanced-bracket invariant, semantic interpretation of the emitted INFO text |
| C30–C32 | loader on an abstract finite file system | well-founded measure (unseen names) and fuel-independence, induction |
| C33–C36 | value stores as interfaces (functions) with the three combinators | refinement to lookup functions; UB as explicit outcome |
| C37, C38 | nanosecond helpers over `Int`/64-bit ranges | arithmetic; negation for `isValid` |
| C39, C40 | `Timing` registry and `Timer` state machine with clock values as inputs | invariants over histories, refinement to sample lists |
| C42–C44 | `TimestampCorrector` over a linearly ordered field | hull invariants by induction over histories; stale-index witness |
| C45–C50 | logging globals as state machine; locks as an interleaving machine; macros; formatter tokeniser; level names | cache coherence invariant, deadlock witness, induction |
| C51–C62 | kinematics over `ℝ` with Mathlib matrices, exact arithmetic instead of floating point | polynomial identities, trigonometry |
| C63 | `ValueStore` viewed as a tree (`ValueStore::getPropertyTree`-style adapter) | refinement to lookups |
| C64 | switching `TimestampCorrector` (two alternating correctors) | invariants over runs; witness for time going backwards |
| C65, C66 | one log call from macro to logger, thread-local recursion guard, buffer growth in `vformatToBuffer` | case analysis, exact outcome; witness |
| C67–C70, C72, C73, C92 | angle utilities, first-order covariance propagation, parametrisation round trips, exp/log Jacobians, three-point alignment, transformation from a tree | calculus (`HasFDerivAt`), trace inequalities, orthogonal groups |
| C71, C94–C96 | children of views, `loadString` end to end through a model of boost's INFO reader, file formats, `findFile` | induction on token lists |
| C74–C82 | comparison macros as *token-level* expansions plus a C++ precedence evaluator, OpenCV and Eigen matrix (de)serialisation on a byte memory, boost archives (binary, text, XML) as printers/parsers | printer/parser round trips, witnesses |
| C83–C85 | generator state machine, double rounding in randLU | rounding lemmas from `Common/Fp` |
| C86–C88 | numerical differentiation, matrix square root, test helpers | algebra over ℝ |
| C89–C91 | assertion macros by evaluation-order model incl. NaN | case analysis over all macros |
| C93 | the typetraits templates as partial-specialisation matching on C++ types | structural induction on types |
| C97–C102 | MATLAB engine as contract, `Engine` as state machine with an allocation ledger | induction over call histories |
| C103+ | see the section "Later additions" | |

Nothing on the list is believed to be inexpressible; the parts that live in the
runtime (IEEE rounding unless stated, OS scheduling fairness, the C++ memory model,
I/O failures) are listed under "Not modelled".

A property whose claim is *false of the code* is kept with its full statement as a
`Cxx_claim : Prop`, refuted by `Cxx_negation : ¬ Cxx_claim`, and the largest part
found to hold is proved under the suffix `_partial`.  Such properties have status
`partial` in MANIFEST.json, and the note says what fails.

## Trusted base

* Lean's kernel; axioms at most `propext`, `Classical.choice`, `Quot.sound` (checked
  for every theorem by `vcheck`).  No axioms of our own.
* The transcription from C++ to the model (by reading; nothing was run).  Every
  definition cites the file and lines it models.
* The contracts of third-party code listed below; they appear as explicit hypotheses
  or structure fields, never as axioms, and each has a concrete inhabitant.

## What is modelled, module by module

| Lean directory | C++ modelled | Not modelled / simplified |
|---|---|---|
| `JobQueue` | `sm_boost` JobQueue.{hpp,cpp}: scheduleFuture/schedule, startThreads, stop, join, waitForEmptyQueue, worker loop, destructor | memory is sequentially consistent; jobs are opaque, may run forever or throw into the future; thread creation never fails; futures are the job's completion event |
| `Common` Id, HashId | `sm_common` Id.hpp, hash_id.hpp | boost hash functions; `randomize`'s entropy (any two words) |
| `Common` Numeric, Strings | maths.hpp, round.hpp, numerical_comparisons.hpp, string_routines.hpp | exact arithmetic in C13–C15; environment is a function; `toTEXT`-style stream output |
| `Common` Double, Fp, NumericDouble | finite doubles as rationals m·2^e (subnormals included), any rounding to nearest (ties-to-even is an instance), overflow to infinities, NaN; numeric helpers of sm_common again in this arithmetic | one zero for +0 and −0; no fused multiply-add or extended precision; floats |
| `Archive` | `sm_matrix_archive` MatrixArchive.{hpp,cpp}, lsma.cpp | file system errors other than short reads; endianness fixed |
| `PTree` | `sm_property_tree` all sources, with boost's readers and writers (INFO, XML, JSON, INI: `*File.lean`) and conversions (`Codecs.lean`) as modelled third-party code | character encodings beyond bytes; the file system (open failures are parameters); an earlier model (`Files.lean`) keeps the XML reader as a parameter and reads INFO texts without quotation marks |
| `ValueStore` | `sm_value_store` all sources | terminal colours; `ValueStoreRef`'s shared_ptr lifetime |
| `Timing` | NsecTimeUtilities, Timer, TimestampCorrector (exact, double and int64 arithmetic) | system clock (values are inputs); table printing beyond secondsToTimeString |
| `Logging` | LoggingGlobals, Formatter, Tokens, Levels, macros, Logger | stdout; relaxed memory |
| `Kinematics` | all of `sm_kinematics` | exact reals, no rounding (quaternion products, rotation, matrix and transformations also over doubles: C119-C122, without fused multiply-add); division by zero is excluded by hypothesis or reported; Eigen's SVD, eigen solver and LDLT by contract |
| `Serial` | serialization_macros.hpp, is_binary_equal.hpp, serialization.hpp (sm_boost, sm_eigen, sm_opencv) | boost::serialization core (contract), cv::Mat allocation |
| `Random` | `sm_random`, sm_eigen/random | boost::random engines (contract `ResetOk`, 32-bit draws) |
| `SmEigen` | NumericalDiff, matrix_sqrt, assert_macros, gtest helpers | exact reals; LDLT by contract |
| `Assert` | sm_common/assert_macros.hpp, sm_logging/assert.h | message formatting except where the claim is about it |
| `Traits` | typetraits.hpp | function and member pointer types |
| `Matlab` | `sm_matlab` Engine.{hpp,cpp}, demo.cpp | the MATLAB process (contract: a variable map) |

Not modelled at all: CMake files, the plotting scripts of `sm_python`,
`sm_deprecation`, Windows-only code (`gettimeofday.hpp`).

## Findings (claims refuted by the model)

* **HashId** (C11): `fromHexString` accepts signs, blanks and `0x`, and throws on overlong/invalid pieces instead of returning false.
* **round/replace** (C15, C16): `lrint` through an `int` cast is wrong outside the int range; `replace` with the same character never ends; reverse variant wraps.
* **MatrixArchive** (C22–C24): `clear(name)` clears everything or nothing, one name can denote a matrix and a string, 32-bit size field, truncated files read indeterminate values.
* **JobQueue** (C05, C06): lost wake-up in `join`, destructor races with a worker that has not yet entered its loop, `join` on a never-started queue dereferences null, `waitForEmptyQueue` blocks after `stop`.
* **PropertyTree** (C28, C32, C71, C94): keys with dots/empty keys, absolute spelling ending in `//`, `getChildren` on a root view calls `back()` on an empty string, fallback path `dir//name`, assignments sharing the first key lose the later ones, values with blanks are cut.
* **ValueStore** (C33, C34, C36): zero layers ignore the default, ADD on a prefixed store returns an uninitialised bool, REMOVE ignores children, the alert message is tried as a candidate path.
* **Timing** (C38, C41, C44, C64): `isValid` inverted, seconds printed as 60.000000, stale segment index, corrected times backwards at a switch; `ptimeToTimeval` has no return statement.
* **Logging** (C46, C47, C65): lock-order inversion, `sm`/`sm.x` stream names, a non-std exception silences the thread; THROTTLE is suppressed while the clock is below the rate.
* **Kinematics** (C54, C56, C60, C68–C70): wrong series sign in `axisAngle2quat`, integer `1/6`, negative angles give the identity in `axisAngle2R`, half turns have logarithm zero, uncertain point differences and mixed sums, gimbal lock.
* **Matrix conversions** (C161): `r2quat` does not normalize, so repeated `T.set(T.T())` amplifies the norm error of the quaternion and eventually changes the rotation.
* **Short rotation vectors in doubles** (C162): the wrong sign of the series in `axisAngle2quat` costs accuracy (more than 2^-46, just below the threshold 2^-13) but not the unit norm.
* **XML files** (C164): files that are no XML documents are accepted (two root elements, `&` alone).
* **Serialization** (C74–C79, C82): unparenthesised check macros (only the first conjunct counts), pointers to pointers, one-row ROIs, storage order, text files cut inside the last number.
* **Random/SmEigen/Assert/Traits** (C84, C85, C88–C91, C93): upper bound reached, `hi-lo` overflow (in `int` and, for `randLU`, to infinity), NaN accepted by `compareRelative` and all order assertions, range macros evaluate twice, `SM_ASSERT_CMD` unparenthesised, rvalue references and const pointers unrecognised.
* **Files of trees** (C157–C160): INFO keys with `#` become directives, XML loses white space and cannot read back a root value, INI reorders, trims and drops `#` keys, JSON writes texts it refuses to read (not UTF-8).
* **Values in trees** (C167, C168): infinities and NaN are written and then refused by `getDouble`; a text such as `2true` or `-1 false` is read by `getBool`.
* **Matlab** (C97–C102): empty values do not round-trip, int64/complex reinterpretation, name check too lenient, leaks, double close, last line cut.

## Later additions


| id | modelled | proof |
|---|---|---|
| C103 | Boost.Python overload resolution (last registered first) and C++'s, the operator tables of sm_python's transformations and points | general iff theorem on hierarchies; case analysis of operands. Finding: products drop the right operand's uncertainty, `inverse` of an uncertain transformation is certain, UT*vector is a TypeError |
| C104 | pickling through the text archive of C74 ff. | archive lemmas. Finding: covariance silently lost |
| C105 | the Python converter of ids (CPython 2, 64 bit) | BitVec arithmetic. Finding: ids >= 2^63 are negative numbers, negative ints are accepted, too large longs become the unset id with a pending exception |
| C106 | `log*` of sm_python and the raw functions against the C++ statements | case analysis. Finding: `logVerbose` always raises AttributeError; named events have no `sm.` prefix |
| C107-C108 | value stores over a heap of shared trees; handles as constant or live references | mutual induction over store structures, set/get lemmas of C26. Findings: handles with a default are never live; children from `getChildren` are copies, from a verbose store they are parts |
| C109 | the lines verbose stores write (writer monad) | structural induction. Finding: unreadable values are replaced by the default without the DEFAULT mark |
| C110 | add, saveTo, canSave, isEmpty, isExtendible | induction over wrappers. Findings: a child saves the whole tree; `isEmpty` looks at the whole tree |
| C111 | `ExtendibleValueStoreRef.set` of Python | from C107, C110. Finding: raises when the present value is not readable with the new type; other types are silently ignored |
| C112-C113 | `TimestampCorrector<double>` with IEEE arithmetic: any rounding to nearest (`IsRnd`), overflow, infinities, NaN; `lower_bound` as binary search | generic invariant for any arithmetic with the `Safe` facts; error analysis of determinant and line. Findings: index behind the hull when the sum of times overflows or after NaN/-inf; results later than the local time |
| C114-C115 | `TimestampCorrector<int64_t>`: overflow is undefined behaviour, conversions to double round | the same invariant; exact determinants give the hull of the exact model. Findings: the determinant overflows after 2-3 seconds of nanoseconds; midpoint rounded before the first point wraps the index; results off by hundreds of ns |
| C116 | `numerical_comparisons.hpp` over `Fp` (finite rationals, infinities, NaN) with any rounding to nearest that is odd | map to extended reals; monotone rounding; Sterbenz lemma for the exactness with the default tolerance. Findings: infinities differ from themselves and equal everything else; a NaN tolerance is accepted |
| C117 | `solveQuadratic` over `Fp`, square root of reals rounded (`IsRndR`) | monotone rounding for acceptance; factors of (1-2^-53)^k for accuracy, the rounding of the discriminant is moved into c. Findings: see MANIFEST |
| C118 | `round(double)` over `Fp` | grid of doubles in each binade. Findings: 1/2 - 2^-54 is rounded to 1; 2^52+1 to 2^52+2 |
| C119 | `qplus` over `Fp`, rounded operation by operation in the order of the source (`Kinematics/QuatDouble.lean`) | rounding calculus `Acc k f x S` (`Common/Acc.lean`: f approximates x with k roundings, S bounds the magnitudes); induction over the chain. Finding: a chain of products with a quaternion of norm 1-2^-53 loses 2^-53 each time, the unit assertion eventually fires |
| C120 | constructor (`normalize`), `operator*`, `inverse` of `Transformation` over `Fp`; `squaredNorm` sums in any order, vector division by entry or by reciprocal (fields of the structure `Eigen`, two instances given) | induction over expression trees; normalization error 12 u independent of the input error |
| C121 | `quatRotate`, `operator*(Vector3d)` over `Fp`; the exact program is the model over the reals of `Kinematics/Transf.lean` | induction; Lipschitz bound of `quatRotate` in the quaternion; n^2 because rotation errors of n steps act on n translations |
| C122 | `quat2r` over `Fp` | entry errors 5 u; the exact matrix is sqNorm times a rotation |
| C123 | `save` over a stream with a buffer, a device with limited room and a kill point (`Archive/Disk.lean`); the flushing policy is a parameter (any function of what is pending and what is handed over) | prefix invariant by induction over the blocks; the two stronger claims are refuted. Findings: the result of `fout.close()` is not checked, so on a full disk an archive smaller than the buffer is reported saved; `save` empties the old file first |
| C124 | `getNameList`, `asDict`, `stringsAsDict`, `stlToList`, `stlToDict` (`Archive/Views.lean`); dictionaries are item lists in insertion order | sortedness of reachable archives |
| C125 | the 16 generated forms of log statement with their static variables, compile-time minimum severity, package name, sequential histories with the evaluated arguments as effects (`Logging/Statement.lean`) | invariant over histories; effects equal to a specification computed from the history alone. Finding: the name argument is evaluated once; later values are ignored |
| C126 | same model with any `SM_PACKAGE_NAME` | enabled streams are `sm` or begin with `sm.`. Findings: statements of packages with other names can never be enabled by `sm::logging::enableNamedStream`; `scripts/generate_macros.py` knows only five of the eleven levels, running it would remove the `SM_ALL … SM_FINE` macros |
| C127 | `JobQueue/Future.lean`: the machine of C01–C07 with a future per job (waiting, value, error, broken) and process termination | exact characterisation of every future by induction over schedules; stability, liveness from C07; two claims refuted (throwing plain jobs, futures after `join`) with what remains proved |
| C128 | `JobQueue/Future.lean` (`blocked`, `dexec`): jobs that wait for futures of other jobs | a job that does not return blocks all waiting calls (invariant); fork-join deadlock theorem; no deadlock if jobs only wait for earlier scheduled ones (descent along the FIFO order) |
| C129 | `Timing/StatDouble.lean`: boost's accumulators (count, sum, sum of squares, extremes; mean and lazy variance) in doubles with any rounding of ties | induction over the samples with relative error bounds; refuted part: five laps of 111 µs computed exactly (no ties): variance −2⁻⁷⁸ |
| C130 | `Timing/Conc.lean`: calls of any number of threads interleaved access by access (mutex, tag map, vector, accumulators) over the registry of `Timing/Model.lean` | mutual exclusion invariant; refinement: the registry in the middle of a critical section is a known function of the registry before it, recorded operations replay to the state; weights for step bounds; three races exhibited |
| C131 | `Python/PTree.lean`: sessions with shared trees and objects of the three exported classes; method tables, lookup along the bases, the class each function asks of its first argument, conversion of arguments | effect lemma for one statement by cases over the functions; invariant "all held objects of the tree are `ConstPropertyTree`s" by induction over programs |
| C132 | the same; `getChild` registered with `&PropertyTree::getChild` asks for a `PropertyTree` | refuted by computation for every `ConstPropertyTree` object; views by C25 |
| C133 | the same, `setX`, `getX`, `getXDefault`, `getOrCreateX` of the four kinds | C26/C27 through the session; reachable sessions have proper namespaces (induction) |
| C134 | `Python/Progress.lean`: attributes and `sample`, `sample2`, `reset` of both classes over exact seconds | induction over the samples; floor arithmetic for the parts of the remaining time; refuted claims by concrete histories |
| C135 | `Common/Progress.lean`: `showProgress` with the formatting flags of the stream, conversions and division in doubles (any rounding to nearest) | the quotient of exact counts is on the right side of 1 (gap below and above 1); error bounds; monotonicity of rounding |
| C136 | `Logging/TimeString.lean`: `Logger::currentTimeSecondsUtc/currentTimeString`: truncation to microseconds, conversion and division in doubles (any rounding to nearest), fixed notation with six decimals | error bound of rounding below half a unit of the last digit up to 2³³ s; explicit double above; digits by induction; lexicographic order of texts of equal width |
| C137–C140 | `Archive/Matlab.lean`: `saveMatrixArchive.m`, `loadMatrixArchive.m` on bytes (saturating conversions, short reads, comparison with nothing is false), joined with the C++ model; character encoding of the file a parameter | both writers produce the same blocks; both readers invert a block whatever follows; lists of blocks by induction; all cut-off points of a block by cases |
| C141 | `Timing/Print.lean`: `Timing::print` in both forms, on top of the registry of `Timing/Model.lean`; hash map traversal = any permutation of the entries; exact arithmetic | invariant for the recorded maximal length; lines by the invariant of C01–C05; insertion into the multimap keeps it sorted and is a permutation |
| C142 | `Python/Plot.lean`: `PlotCollection` with an `OrderedDict` and the pages told to the window toolkit | invariant by induction over the calls against a specification on the list of calls |
| C143 | `Python/Frame.lean`: `plotCoordinateFrame.py`; an axis is the list of lines drawn; reals | orthogonality and determinant of the rotation |
| C144 | `Archive/Lsma.lean`: `main` of `lsma.cpp` on the bytes of the files, on top of the C++ archive model; printing of a matrix a parameter | `load` inverts `save` (earlier theorem); induction over the files |
| C145 | `Timing/CorrectorObj.lean`: both forms of `correctTimestamp` and `reset()` as calls on one object | refuted by two histories; the rest: the surviving corrector has been fed only earlier observations, so as long as no switch happens results come from the main corrector alone |
| C146 | `Timing/CorrectorObj.lean`: heap of correctors with shared pointers, programs of create/copy/move/assign/destroy/call | refuted by a program; the rest: invariant that no two live objects share a pending corrector and that each object with its pointee is what its calls alone would make of it |
| C147 | `Kinematics/StaticType.lean`: overload resolution by static types and virtual calls, on top of the operators of `Kinematics/Uncertain.lean` | the covariance of a product is determined by its definition (uniqueness of Jacobians); cases on the types |
| C148 | `Kinematics/RandomDraw.lean`: the functions `setRandom`, `quatRandom` as functions of what is drawn; exact arithmetic, the draw that leads to 0/0 excluded | the series branch of `axisAngle2quat` is a multiple of another rotation; explicit draws for every result |
| C149 | `Kinematics/RandomDraw.lean`: programs over both generators (`std::rand` behind Eigen, `sm::random`) | relation between runs, induction over the program; refuted by a generator |
| C150 | `axisAngle2R(vector)`, `RotationVector::parametersToRotationMatrix`, `axisAngle2quat`, `Rx/Ry/Rz` over the reals | Rodrigues formula = matrix exponential (Mathlib `NormedSpace.exp`): both sides solve the same linear differential equation; group laws from commuting exponentials; thresholds handled case by case |
| C151 | `Random/Conc.lean`: `HashId::randomize` as a transition system, one step per access to the lock, the engine and the object, any number of threads | invariant over the reachable states (owner of the lock, phase of the owner, log, objects) |
| C152 | `Random/Conc.lean`: `uniform` without a lock, reading and writing the engine in two steps | refuted by an interleaving of two threads; invariant for the executions without overlap |
| C153 | `Kinematics/UncertainSet.lean`: the calls that change a `HomogeneousPoint` as a datatype, with their effect on points and on uncertain points (virtual `normalize`, hidden `operator=`) | refuted with `setZero`; induction over the calls; Jacobian of each call and its uniqueness give the exact conditions |
| C154 | the same for `Transformation` | refuted with `setIdentity`; induction over the calls; `S(t+ρ)⁻¹ S(t)` for `UOplus` |
| C155 | `Common/Ptime.lean`: `ptimeToTimeval` on ticks since the epoch; reaching the end without `return` is an outcome of its own; special values not modelled | refuted for every argument; the local variable characterised by integer arithmetic |
| C156 | `Python/Uncertain.lean`: the operators of C++ by operand types, the `.def`s, Python's fallback to NumPy (contract) | refuted by a scalar times a vector; case analysis over all kinds of operands |
| C157 | `PTree/InfoFile.lean`: `saveInfo`, `asInfoString`, `loadInfo` with boost's `write_info` / `read_info` (third party, modelled in full: escapes, quotation marks, continuation lines, comments, includes to depth 100) | refuted by three trees; induction over the tree with the reader's stack gives the exact set of trees that survive; simulation between the full reader and the one of C94 |
| C158 | `PTree/XmlFile.lean`: `saveXml`, `loadXml`, `loadXmlFromString`, `getXmlReadOptions` with boost's `write_xml` / rapidxml reader (third party, modelled: elements, attributes, character references, CDATA, comments, processing instructions, document types) | refuted by root values, white space and odd keys (two general theorems); induction over the document with the reader's stack gives the round trip for all flags |
| C159 | `PTree/IniFile.lean`: `saveIni`, `loadIni` with boost's `write_ini` / `read_ini` (third party, modelled in full) | refuted by order, trimming and comment-like keys; the reader's invariant is the canonical form, induction over the written lines gives the converse: an equivalence |
| C160 | `PTree/JsonFile.lean`: `saveJson`, `loadJson` with boost's `write_json` / `read_json` (third party, 1.59 and later, modelled in full: escapes, surrogate pairs, UTF-8 check, numbers, constants, arrays) | refuted by a value in Latin-1; induction over the tree gives exactly the trees that survive; invariant of the reader (UTF-8, no mixed nodes) for reloading |
| C161 | `Kinematics/MatrixConv.lean`: `r2quat`, the constructor from a matrix, `T()`, on doubles with any round-to-nearest | interval calculus of absolute errors; the recursion of `1 - |q|²` under one conversion (factor `1/2 + 1/(4 q_k²)`) gives both the invariant of the stable part and the growth that refutes the general claim |
| C162 | `Kinematics/OplusDouble.lean`: `axisAngle2quat`, `updateQuat`, `Transformation::oplus` on doubles; `sin`/`cos` of the C library and Eigen's sum are parameters | absolute error calculus per update, the norm of the series' quaternion is 1 up to `N⁴/12` in spite of the wrong sign; induction over the list of updates |
| C163 | `PTree/JsonFile.lean`'s reader against `PTree/JsonGrammar.lean`, a grammar with semantics after RFC 8259 | both directions: induction over the length of the derivation (reader accepts, with the right tree and rest), induction over the reader's fuel (accepted texts have a derivation) |
| C164 | `PTree/XmlFile.lean`'s reader against `PTree/XmlGrammar.lean`, a grammar with semantics after XML 1.0 | refuted in the direction "nothing else is accepted" by files with two elements; mutual induction over derivations of elements and contents gives the right tree for every document, attribute list, reference, CDATA section and document type |
| C165 | `PTree/IniFile.lean`'s reader against `PTree/IniGrammar.lean`, which says line by line what a file means | both directions: each line's step is the step of what it says; induction over the lines with the invariant that the names taken so far are those of the groups read |
| C166 | `PTree/InfoFile.lean`'s reader against `PTree/InfoGrammar.lean`, a grammar of lines, tokens and nested children | both directions: lexing line by line (each line's tokens are unique), the stack machine follows every derivation (induction over derivations), and every accepted run has a derivation (strong induction over the tokens: accepted, closes the enclosing list, or leaves a brace open) |
| C167 | `PTree/Codecs.lean`: the conversions of boost's translators (`<<` with 17 digits, `>>` and end of text), as concrete codecs for the model of `get`/`set` | 17 digits determine a double: distinct doubles are `2^-53` of either apart and `10^16 > 2^53`; the text of `%.17g` denotes exactly the 17 digit number (trailing zeros, both formats); refuted for values that are not finite |
| C168 | the same readers against the texts of `PTree/CodecsText.lean` | both directions: splitting a text at the scanner's stops, and scanning a given decomposition |
| C169 | `Kinematics/FromTreeDouble.lean`: the tree's texts, boost's conversions (`PTree/Codecs.lean`) and the arithmetic of doubles; `store` and `reload` model a client that writes the seven numbers and reads them again | error of the decimal conversion, of the division and of the second normalisation, added up (`dir_close`, `normalize_err`); the cycle by induction, with C167's exact round trip of each number |
| C170 | `PTree/Session.lean`: programs of setters on any views, composed with the conversions (`Codecs.lean`) and the four file formats | what is stored after a program by induction from its end; trees made by `put` have no repeated keys, so every entry inside has a path and its text is that of a statement; then the file theorems C157-C160; for INI the reordering keeps all lookups |
| C171 | `Timing/SlopeOffset.lean`: `getSlope`, `getOffset` in doubles and for int64 times, on the states of `Timing/Machine.lean` | error analysis of `y + x * dy / dx`; the segment index is inside the hull by induction over the observations; refuted by evaluating three observations |
| C172 | `Kinematics/CovDouble.lean`: the covariance products of `UncertainTransformation` and `Transformation` in doubles; a matrix product is a relation that leaves the order of the sums open | the calculus of `Common/Acc.lean` lifted to sums in any order (`SumOf.acc`) and to matrix products; refuted by an example where each sum has a single term that is not zero, so that the order does not matter |
| C173 | `Kinematics/LogDouble.lean`: `quat2AxisAngle` in doubles; `acos` and `asin` of the C library by their accuracy on [-1, 1], not a number outside | each of the three formulas gives a half angle whose sine and cosine are near the lengths of the vector and scalar part; the exponential is Lipschitz continuous, and its inverse on rotation vectors of at most half a turn |
| C174 | `Kinematics/LogDouble.lean`: `qslerp`, `lerp`, `slerpTransformations`, `interpolateTransformations` in doubles | the computed relative quaternion is almost unit with a scalar part of at least -2^-50, so that C173 gives its logarithm; the exponential of a fraction of it and the product are accurate by C119 and C162; rounding errors of the quotient of times |
| C175 | `Kinematics/EulerDouble.lean`: the four conventions of Euler angles in doubles; `atan2` of the C library by its accuracy (signs of zeros left open) | rounding errors of the entries; the angle of a sine by the product formula for the difference of sines, the angle of a point by the sine and cosine of the difference; the NaN by evaluation with the usual rounding |
| C176 | `Common/Format.lean`: the output stream as text and format (width, fill, precision, notation, adjustment); doubles printed from their exact value in fixed, scientific and general notation; which overload of `padded` a call means | digits of integers, nearest integers on the grid of the last digit, gaps between doubles for reading back; refutations by evaluation |
| C177 | `Kinematics/RotVecDouble.lean`: `RotationVector.cpp` and `axisAngle2R` operation by operation on doubles; the C library's sin, cos, acos only accurate | absolute errors of the axis, the angle and the entries against the matrix exponential; the arc cosine near the angle; refutation by evaluation with a correctly rounded library |
| C178 | `Kinematics/ErDouble.lean`: `EulerRodriguez.cpp` operation by operation on doubles; the C library's tan and acos only accurate | `parametersToRotationMatrix` against Rodrigues' formula with a = 2 atan of the length; the arc cosine and the tangent away from their singularities; refutations by evaluation with a correctly rounded library |
| C179 | `Kinematics/HomDouble.lean`: `homogeneous_coordinates.cpp` and `HomogeneousPoint.cpp` operation by operation on doubles; debug assertions left out | expressions of sums, differences and scalings by induction, weights and numerators with a count of roundings; the C58 derivative for the Jacobian; refutations by evaluation with round-half-even |
| C180 | `SmEigen/DiffDouble.lean`: `NumericalDiff.hpp` operation by operation on doubles, for any stateless function | Taylor's theorem at the two points actually reached; the quotient with a factor for each rounding; refutations by evaluation with round-half-even |
| C181 | `Kinematics/AngleDouble.lean`: `angleMod`, `deg2rad`, `rad2deg` operation by operation on doubles, with the literals of the header rounded to doubles | forward error of each operation against the real π (20 digits from Mathlib); the gap to the next double for the angles that stay; refutations by evaluation with round-half-even |
| C182 | `Kinematics/RateDouble.lean`: `buildSMatrix`, `parametersToSMatrix`, `angularVelocityAndJacobian` of the three Euler-angle classes, operation by operation on doubles | counting roundings against the exact matrices, whose meaning along curves is C61; determinants from the entries |
| C183 | `Kinematics/ErRate.lean`: `EulerRodriguez::angularVelocityAndJacobian`, operation by operation on doubles | counting roundings, with the denominator as the unit so that large and small vectors are treated alike; the exact counterpart is C61 |
| C184 | `Kinematics/RvRate.lean`: `RotationVector::parametersToSMatrix` and the velocity of `angularVelocityAndJacobian`, operation by operation on doubles; the Jacobian's left half (C61 over the reals) is not modelled in doubles | counting roundings relative to the angle, so that the quotients do not lose accuracy for small angles; a sine that is accurate to one unit in the last place; the exact matrix is derived along curves from the matrix exponential |
| C185 | `Kinematics/RvInv.lean`: `RotationVector::parametersToInverseSMatrix`, operation by operation on doubles | infinities and NaNs pass through the operations; the cosine of a short angle rounds to one; counting roundings for the lengths from 2^-20 to 6, from a lower bound of the denominator; the exact inverse is that of C61 |
| C186 | `Kinematics/MatDouble.lean`: `inverseTransform`, `transformationAndJacobian` and `inverseTransformationAndJacobian` on doubles, with Eigen's products as relations | counting roundings entry by entry, the exact side from C57 and C62 |
| C187 | `Kinematics/ExpDiff.lean`: `expDiffMat` and `quatExpJacobian` on doubles, operation by operation; the products as relations | counting roundings; the cancellation in `1 - sin φ/φ` is bounded by the size of the result, below the switch by the remainders of the series |
| C188 | `Kinematics/LogDiff.lean`: `logDiffMat` on doubles, operation by operation, with the C library's `tan` | counting roundings; the quotient of half the angle and its tangent as a Lipschitz function, since the tangent itself has a pole at half a turn (which no double is, by the irrationality of π); below the switch bounds for `sin x - x cos x` by monotonicity |
| C189 | `Kinematics/LerpDouble.lean`: `lerp` on doubles, coefficient by coefficient, with the size assertion | cases of the comparisons; counting roundings; the counterexample is evaluated by the kernel |
| C190 | `Kinematics/LogJac.lean`: `quatLogJacobian` on doubles, operation by operation | counting roundings against the exact derivative (C70); at the identity every quotient has the denominator zero; missing: the last column, where `1 - w²` cancels |
