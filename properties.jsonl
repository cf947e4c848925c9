{"id": "C01", "title": "JobQueue neither loses, duplicates nor reorders jobs", "statement": "At every moment the jobs passed to scheduleWork/scheduleFuture are, in scheduling order, exactly the jobs already handed to a worker followed by the jobs still queued. Each scheduled job is handed to exactly one worker at most once, and workers pick jobs in FIFO order.", "quantifier": "every number of workers, every sequence of API calls from any number of client threads and every thread interleaving", "why_tests_cant": "a test sees a handful of schedules; losing or duplicating a job depends on the interleaving of pop, unlock and notify", "anchors": ["sm_boost/src/JobQueue.cpp: JobQueue::scheduleWork, JobQueue::exec_loop", "sm_boost/include/sm/boost/implementation/JobQueue.hpp: scheduleFuture"]}
{"id": "C02", "title": "waitForEmptyQueue returns only when all work is done", "statement": "When waitForEmptyQueue() returns, every job whose scheduling completed before the return has finished executing: no job is queued and none is running.", "quantifier": "every reachable state and interleaving, any number of waiters and workers", "why_tests_cant": "the gap between popping a job and counting it as active is only observable under particular schedules", "anchors": ["sm_boost/src/JobQueue.cpp: JobQueue::waitForEmptyQueue, exec_loop"]}
{"id": "C03", "title": "JobQueue parallelism is bounded by the started pool", "statement": "The number of jobs executing at the same time never exceeds the number of threads given to the first start() call; later start() calls add no worker.", "quantifier": "every call history and interleaving", "why_tests_cant": "the bound must hold for all schedules", "anchors": ["sm_boost/src/JobQueue.cpp: JobQueue::start, exec_loop"]}
{"id": "C04", "title": "stop() bounds the work that still begins", "statement": "After stop() each worker begins at most one further job (the one it had already committed to); jobs not begun stay in the queue and are never executed by that queue again.", "quantifier": "every interleaving of stop with the workers", "why_tests_cant": "depends on whether a worker has already tested the kill flag when stop() runs", "anchors": ["sm_boost/src/JobQueue.cpp: JobQueue::stop, exec_loop"]}
{"id": "C05", "title": "join() always completes once running jobs finish", "statement": "After join() is called on a started queue, every worker terminates once its current job returns, so join() returns.", "quantifier": "every interleaving", "why_tests_cant": "the lost-wakeup window (predicate tested, not yet waiting; kill flag set and notify sent without the mutex) is a few instructions wide", "anchors": ["sm_boost/src/JobQueue.cpp: JobQueue::join, stop, exec_loop"]}
{"id": "C06", "title": "The JobQueue destructor outlives its workers", "statement": "When ~JobQueue() returns no worker thread will touch the queue again.", "quantifier": "every interleaving of start, destruction and worker start-up", "why_tests_cant": "requires a worker thread that has been spawned but not yet scheduled at destruction", "anchors": ["sm_boost/src/JobQueue.cpp: JobQueue::~JobQueue, exec_loop, start"]}
{"id": "C07", "title": "A live JobQueue never stalls with work queued", "statement": "As long as the queue was started with at least one thread and was not stopped, whenever a job is queued at least one worker is running, runnable or holds a pending wake-up: the pool cannot be stuck with all workers asleep while work is queued; and a waiter in waitForEmptyQueue is never left asleep when the queue is idle.", "quantifier": "every interleaving (with or without spurious wake-ups)", "why_tests_cant": "absence of lost wake-ups is a statement about all schedules", "anchors": ["sm_boost/src/JobQueue.cpp: scheduleWork, exec_loop, waitForEmptyQueue"]}
{"id": "C08", "title": "Id is a totally ordered value with a distinguished unset value", "statement": "The comparison operators of an Id form one strict total order consistent with ==, swapping/assigning preserves the value, isSet() is false exactly for the default-constructed/cleared value, and the unset value is the largest.", "quantifier": "every pair/triple of 64-bit values", "why_tests_cant": "quantifies over all 2^64 values", "anchors": ["sm_common/include/sm/Id.hpp: SM_DEFINE_ID, Id::isSet, operator<, =="]}
{"id": "C09", "title": "Id increment enumerates distinct ids", "statement": "Starting from any id, n < 2^64 increments produce pairwise different ids; post-increment returns the old value and pre-increment the new one; an increment yields an unset id exactly when the old value was 2^64-2, and incrementing an unset id yields 0.", "quantifier": "every id and number of increments", "why_tests_cant": "wrap-around at 2^64 is unreachable by counting", "anchors": ["sm_common/include/sm/Id.hpp: operator++"]}
{"id": "C10", "title": "HashId hex round trip", "statement": "fromHexString(hexString()) returns true and restores the id exactly; hexString always has 32 lowercase hex characters and different ids have different strings.", "quantifier": "every 128-bit id", "why_tests_cant": "2^128 values", "anchors": ["sm_common/include/sm/hash_id.hpp: hexString, fromHexString"]}
{"id": "C11", "title": "HashId::fromHexString accepts only 32 hex digits", "statement": "fromHexString succeeds exactly on strings of 32 hexadecimal digits (either case), and otherwise returns false leaving the id unchanged.", "quantifier": "every string", "why_tests_cant": "the set of malformed strings is infinite; the parser's per-byte leniency only shows on odd inputs", "anchors": ["sm_common/include/sm/hash_id.hpp: fromHexString"]}
{"id": "C12", "title": "HashId ordering and equality are consistent", "statement": "operator< is a strict total order on ids that agrees with operator==, equal ids have equal hash values, isValid() is false exactly for the all-zero id, and fromUint64/toUint64 style access round-trips the 16 bytes.", "quantifier": "every id", "why_tests_cant": "2^128 values", "anchors": ["sm_common/include/sm/hash_id.hpp: operator<, operator==, isValid, setInvalid"]}
{"id": "C13", "title": "Tolerant comparisons are exhaustive and exclusive", "statement": "For eps > 0 exactly one of approximatelyEqual(a,b), definitelyGreaterThan(a,b), definitelyLessThan(a,b) holds; approximatelyEqual is reflexive and symmetric, definitelyGreaterThan(a,b) = definitelyLessThan(b,a), definitelyLessThan is transitive-compatible with <, and eps <= 0 always throws.", "quantifier": "every pair of (real) numbers and tolerance", "why_tests_cant": "a trichotomy over a continuum", "anchors": ["sm_common/include/sm/numerical_comparisons.hpp: approximatelyEqual, definitelyGreaterThan, definitelyLessThan"]}
{"id": "C14", "title": "solveQuadratic returns exactly the roots", "statement": "When it does not throw and no division by zero occurs, both returned numbers are roots of a x^2 + b x + c and every root is one of them; it throws exactly when there is no real root; the code's cancellation-avoiding branch does not change the result.", "quantifier": "every real a,b,c", "why_tests_cant": "continuum of coefficients; the degenerate b=c=0 case must be isolated", "anchors": ["sm_common/include/sm/maths.hpp: solveQuadratic, sgn"]}
{"id": "C15", "title": "round() rounds to nearest with halves away from zero", "statement": "round(x) is an integer with |round(x)-x| <= 1/2, halves go away from zero, round(-x) = -round(x), and the integer-returning variants agree with it exactly on the range of a 32-bit int.", "quantifier": "every real x", "why_tests_cant": "continuum; the 64-bit variant casting through int only fails for |x| >= 2^31", "anchors": ["sm_common/include/sm/round.hpp: sm::round, rint, lrint"]}
{"id": "C16", "title": "Character replace substitutes all but the first skip occurrences and terminates", "statement": "replace(str, target, replacement, skip) terminates and returns the string of the same length in which the first skip occurrences of target are kept, all later occurrences are replaced and no other character changes; replace_reverse does the same counting occurrences from the end.", "quantifier": "every string, target, replacement and skip count", "why_tests_cant": "termination and effect on all strings; the hang (target = replacement) and the wrap-around at position 0 need specific inputs", "anchors": ["sm_common/include/sm/string_routines.hpp: replace, replace_reverse"]}
{"id": "C17", "title": "ensureTrailingBackslash and leading_pad normalise paths and numbers", "statement": "ensureTrailingBackslash(s) ends with '/', is idempotent, only ever appends a single '/'; leading_pad gives a string of at least the requested width whose suffix is the printed value and whose prefix consists of the pad character only.", "quantifier": "every string, width", "why_tests_cant": "all inputs", "anchors": ["sm_common/include/sm/string_routines.hpp: ensureTrailingBackslash, leading_pad"]}
{"id": "C18", "title": "Environment substitution replaces exactly the set $(NAME) references", "statement": "substituteEnvVars returns the input in which every $(NAME) (read left to right, NAME up to the next ')') whose variable is set is replaced by its value; references to unset variables, an unterminated $( and all other text are preserved verbatim and in order; substituted values are not rescanned.", "quantifier": "every input string and environment", "why_tests_cant": "all strings", "anchors": ["sm_common/include/sm/string_routines.hpp: substituteEnvVars"]}
{"id": "C19", "title": "MatrixArchive save/load round trip", "statement": "Saving an archive and loading the bytes into an empty archive restores exactly the same named matrices (dimensions and every entry, bit for bit) and strings, for every archive whose names are valid and whose block sizes fit the 32-bit headers.", "quantifier": "every archive content, any matrix dimensions including empty matrices, any string bytes", "why_tests_cant": "unbounded contents; byte-level framing", "anchors": ["sm_matrix_archive/src/MatrixArchive.cpp: save, load, writeMatrixBlock, readBlock, readMatrix, writeName, readName, writeStringBlock"]}
{"id": "C20", "title": "MatrixArchive name filter", "statement": "save/load with a non-empty set of valid names transfers exactly the entries whose names are in the set; an empty set transfers everything.", "quantifier": "every archive and every filter set", "why_tests_cant": "all subsets", "anchors": ["sm_matrix_archive/src/MatrixArchive.cpp: load, save, isNameValid / validNames"]}
{"id": "C21", "title": "MatrixArchive behaves as a name->value map", "statement": "After setMatrix/setVector/setScalar/setString a getter for that name returns the value just written and all other names are unaffected; getters throw exactly if no entry of that kind exists or the shape does not match; an invalid name is refused with the archive unchanged.", "quantifier": "every history of operations", "why_tests_cant": "all histories", "anchors": ["sm_matrix_archive/src/MatrixArchive.cpp: setMatrix, setVector, setScalar, setString, getMatrix, getVector, getScalar, getString, validateName"]}
{"id": "C22", "title": "A name denotes either a matrix or a string", "statement": "No history of set/create/load operations leaves one name bound both to a matrix and to a string.", "quantifier": "every history", "why_tests_cant": "needs the one history that mixes the setters which do not erase the other kind", "anchors": ["sm_matrix_archive/src/MatrixArchive.cpp: setMatrix, setScalar, setVector, createMatrix, setString, load"]}
{"id": "C23", "title": "clear(name) removes the entry", "statement": "After clear(name) no entry, matrix or string, with that name exists and all other entries are untouched; clear() empties the archive.", "quantifier": "every archive and name", "why_tests_cant": "all archives", "anchors": ["sm_matrix_archive/src/MatrixArchive.cpp: clear"]}
{"id": "C24", "title": "MatrixArchive accepts only valid names and rejects corrupt blocks", "statement": "A name is accepted iff it has 1..32 characters, starts with a letter and continues with letters, digits and underscores; load throws on a block whose start or end mark is wrong, and blocks loaded before the corrupt one are kept.", "quantifier": "every name and every byte stream", "why_tests_cant": "all strings / byte streams", "anchors": ["sm_matrix_archive/src/MatrixArchive.cpp: validateName, readBlock, load"]}
{"id": "C25", "title": "Property keys are namespace-qualified consistently", "statement": "A relative key k in a tree whose namespace is n denotes the same entry as the absolute key n/k; absolute keys ignore the namespace; nested child views compose: child(a) then child(b) equals child(a/b); one trailing slash is insignificant.", "quantifier": "every namespace and key string", "why_tests_cant": "all strings", "anchors": ["sm_property_tree/src/PropertyTree.cpp: PropertyTree::PropertyTree, buildQualifiedKeyName"]}
{"id": "C26", "title": "PropertyTree set/get laws", "statement": "Reading a key after setting it returns the value set; setting a key leaves every other key's value and existence unchanged except that its ancestors come into existence; doesKeyExist is true exactly after.", "quantifier": "every tree, path and value", "why_tests_cant": "all trees and paths; duplicate sibling keys and shared prefixes matter", "anchors": ["sm_property_tree/src/BoostPropertyTreeImplementation.cpp: get, set, doesKeyExist"]}
{"id": "C27", "title": "Default-valued getters", "statement": "A getter with a default never throws, returns the stored value when present and convertible, else the default; the const getter leaves the tree unchanged and the non-const one stores the default so that the next read without a default returns it.", "quantifier": "every tree, key, default", "why_tests_cant": "all trees", "anchors": ["sm_property_tree/src/BoostPropertyTreeImplementation.cpp: get with default", "sm_property_tree/include/sm/BoostPropertyTreeImplementation.hpp"]}
{"id": "C28", "title": "update merges one tree into another", "statement": "After update(other, true): every key of other reads as in other and every key not in other keeps its value; merging twice equals merging once; with createIfNecessary=false it throws as soon as a key is missing, and if it does not throw, no key was added.", "quantifier": "every pair of trees", "why_tests_cant": "all trees, all depths", "anchors": ["sm_property_tree/src/BoostPropertyTreeImplementation.cpp: update, traverse_recursive, merge"]}
{"id": "C29", "title": "loadString translates the compact notation faithfully", "statement": "The compact text a/b=v,c{d=w} is translated into balanced INFO text that has the same nesting: every '/' or '{' opened is closed at the corresponding ',' or '}' and the translation fails exactly on a quotation mark or an unmatched '}'.", "quantifier": "every input string", "why_tests_cant": "all strings; nesting depth unbounded", "anchors": ["sm_property_tree/src/BoostPropertyTreeImplementation.cpp: loadString"]}
{"id": "C30", "title": "Config file inheritance terminates and loads each file once", "statement": "Loading a list of config files with their 'parents' terminates for every (possibly cyclic) inheritance graph and loads no file name more than once.", "quantifier": "every finite file system content and list of names", "why_tests_cant": "cyclic inheritance of any length", "anchors": ["sm_property_tree/src/BoostPropertyTreeLoader.cpp: readFiles, ignore set"]}
{"id": "C31", "title": "Config files override their parents", "statement": "A file's entries override the entries of its parents and of files listed earlier; files marked with '!' may only overwrite keys that already exist.", "quantifier": "every inheritance graph", "why_tests_cant": "all graphs", "anchors": ["sm_property_tree/src/BoostPropertyTreeLoader.cpp: readFiles, updateOrSet"]}
{"id": "C32", "title": "Search-path resolution", "statement": "A relative file name resolves to the first existing candidate in search-path/infix order, absolute and ./ or ../ names bypass the search paths, and a name that exists nowhere resolves to the first candidate.", "quantifier": "every search path list and file system", "why_tests_cant": "all directory layouts", "anchors": ["sm_property_tree/src/BoostPropertyTreeLoader.cpp: resolveFullFilePath", "sm_property_tree/src/BoostPropertyTreeSupport.cpp: findFile"]}
{"id": "C33", "title": "Layered value stores give the first layer that has the key", "statement": "A LayeredValueStore returns the value of the first layer that has the key; if no layer has it the default is returned; hasKey is true iff some layer has it; children of a layered store behave as the layering of the children.", "quantifier": "every number of layers, every content and path", "why_tests_cant": "unbounded layers", "anchors": ["sm_value_store/src/ValueStore.cpp: LayeredValueStore::getFromLayers, hasKey, getChild, getChildren"]}
{"id": "C34", "title": "Prefixed value stores rename keys", "statement": "In ADD mode looking up k is looking up prefix/k in the wrapped store, for values, existence and children; in REMOVE mode looking up prefix/k is looking up k and every other key is absent.", "quantifier": "every prefix, key, store", "why_tests_cant": "all strings; the existence query in ADD mode reads an uninitialised flag", "anchors": ["sm_value_store/src/PrefixedValueStore.cpp: applyPrefix, hasKey, getChild, get*"]}
{"id": "C35", "title": "PropertyTreeValueStore agrees with its tree", "statement": "A value store over a property tree reads exactly the tree's values, getChild(k) then k' reads k/k', add makes the key readable, hasKey iff the tree has the key; a get with a default does not modify the tree.", "quantifier": "every tree and key", "why_tests_cant": "all trees", "anchors": ["sm_value_store/src/PropertyTreeValueStore.cpp: getFromPt, addToPt, getChild, hasKey"]}
{"id": "C36", "title": "findPathAndAlert picks the first present candidate", "statement": "findPathAndAlert returns the first candidate path that exists, warns exactly if it was marked deprecated, never treats an alert message as a candidate, and falls back to the first candidate.", "quantifier": "every candidate list and store", "why_tests_cant": "the message-as-candidate confusion needs a store containing a key equal to a message", "anchors": ["sm_value_store/src/ValueStore.cpp: findPathAndAlert"]}
{"id": "C37", "title": "Nanosecond time conversions round-trip", "statement": "chronoToNsec(nsecToChrono(t)) = t, and the seconds conversion secToNsec(nsecToSec(t)) is within one nanosecond (exact arithmetic); secToNsec truncates towards zero.", "quantifier": "every representable time", "why_tests_cant": "2^64 values", "anchors": ["sm_timing/src/NsecTimeUtilities.cpp: nsecToChrono, chronoToNsec, secToNsec, nsecToSec"]}
{"id": "C38", "title": "isValid(time) is true exactly for valid times", "statement": "isValid(t) is false for getInvalidTime() and true for every other time.", "quantifier": "every NsecTime", "why_tests_cant": "2^64 values (the code returns the negation)", "anchors": ["sm_timing/src/NsecTimeUtilities.cpp: isValid, getInvalidTime"]}
{"id": "C39", "title": "Timer handles are stable and unique", "statement": "getHandle(tag) returns the same handle for the same tag for the life of the process, different handles for different tags, and getTag inverts it; asking a statistic for an unknown tag registers it with zero samples; a Timer on an unregistered handle throws.", "quantifier": "every history of registrations", "why_tests_cant": "all histories", "anchors": ["sm_timing/src/Timer.cpp: getHandle, getTag, Timer::Timer"]}
{"id": "C40", "title": "Timer statistics equal the recorded samples", "statement": "After any sequence of start/stop on any timers the total, count, mean, min and max reported for a tag equal those of the list of elapsed intervals recorded for it, starting a running timer or stopping a stopped one throws and records nothing; reset clears.", "quantifier": "every history of start/stop/discard", "why_tests_cant": "all histories", "anchors": ["sm_timing/src/Timer.cpp: start, stop, addTime, getTotalSeconds, getMeanSeconds, getMinSeconds, getMaxSeconds, getNumSamples"]}
{"id": "C41", "title": "secondsToTimeString is a mixed-radix decomposition", "statement": "The printed hours, minutes, seconds satisfy 0 <= seconds < 60, 0 <= minutes < 60 and 3600h+60m+s equals the input up to the printed precision for every non-negative input.", "quantifier": "every non-negative duration", "why_tests_cant": "continuum", "anchors": ["sm_timing/src/Timer.cpp: secondsToTimeString"]}
{"id": "C42", "title": "TimestampCorrector keeps a convex lower hull of all observations", "statement": "After any sequence of accepted (remote, local) pairs the stored points are a subsequence of the observations with strictly increasing remote time, starting with the first and ending with the latest observation, convex, and every observation lies on or above the hull; a non-increasing remote time throws and changes nothing.", "quantifier": "every sequence of measurements", "why_tests_cant": "all histories of floating inputs (modelled exactly)", "anchors": ["sm_timing/include/sm/timing/implementation/TimestampCorrector.hpp: correctTimestamp, isAboveTopLine, isAboveLine"]}
{"id": "C43", "title": "Corrected timestamps never exceed the measurement line", "statement": "The corrected local time is an affine function of remote time determined by one hull segment, strictly increasing if the local times fed were; no observation that has been fed lies below that line, so the corrected time of a fed remote stamp is never later than its recorded local time.", "quantifier": "every measurement history", "why_tests_cant": "all histories", "anchors": ["sm_timing/include/sm/timing/implementation/TimestampCorrector.hpp: getLocalTime, correctTimestamp"]}
{"id": "C44", "title": "TimestampCorrector queries are memory safe", "statement": "After any history getLocalTime/getSlope/getOffset either throw NotInitialized or read only existing hull points.", "quantifier": "every measurement history", "why_tests_cant": "needs a history where the hull shrinks back to two points after the mid-point segment index advanced", "anchors": ["sm_timing/include/sm/timing/implementation/TimestampCorrector.hpp: getLocalTime, getSlope, getOffset, correctTimestamp"]}
{"id": "C45", "title": "A log statement is enabled iff its level and stream say so", "statement": "At every log site, in every quiescent state, the cached enabled flag equals: level >= global level and (no stream name or the stream is enabled), whatever sequence of setLevel / enableNamedStream / disableNamedStream / first uses happened.", "quantifier": "every history", "why_tests_cant": "cache coherence over all histories", "anchors": ["sm_logging/src/LoggingGlobals.cpp: initializeLogLocation, checkLogLocationEnabled, setLevel, enableNamedStream, disableNamedStream, notifyLoggerLevelsChanged"]}
{"id": "C46", "title": "Logging configuration is free of deadlock", "statement": "Concurrent calls of log statements, setLevel and enable/disableNamedStream never deadlock.", "quantifier": "every interleaving of any number of threads", "why_tests_cant": "lock-order inversion needs a particular interleaving", "anchors": ["sm_logging/src/LoggingGlobals.cpp: enableNamedStream, disableNamedStream, initializeLogLocation, notifyLoggerLevelsChanged"]}
{"id": "C47", "title": "Named stream prefixing", "statement": "Stream names are normalised idempotently to 'sm' or 'sm.\u2026'; names that differ only in the default prefix denote the same stream, so enabling then disabling any spelling restores the disabled state. enableNamedStream(name) / disableNamedStream(name) decide about the statements SM_*_NAMED(name, \u2026), by the last call.", "quantifier": "every stream name", "why_tests_cant": "all strings", "anchors": ["sm_logging/src/LoggingGlobals.cpp: addDefaultPrefixIfMissing, enableNamedStream, isNamedStreamEnabled"]}
{"id": "C48", "title": "ONCE and THROTTLE macros", "statement": "A *_ONCE statement prints exactly once over any number of enabled executions; a *_THROTTLE(rate) statement never prints twice within rate seconds and prints whenever at least rate has passed since its previous print.", "quantifier": "every sequence of executions, enable states and clock values", "why_tests_cant": "all histories", "anchors": ["sm_logging/include/sm/logging/macros.h", "sm_logging/include/sm/logging/console.hpp: SM_LOG_ONCE, SM_LOG_THROTTLE"]}
{"id": "C49", "title": "Formatter tokenisation is lossless", "statement": "Initialising the formatter splits the format into fixed text and ${token}s such that concatenating the pieces gives back the format; printing an event with no known token reproduces the text.", "quantifier": "every format string", "why_tests_cant": "all strings", "anchors": ["sm_logging/src/Formatter.cpp: Formatter::init, print"]}
{"id": "C50", "title": "Log level names parse", "statement": "fromString maps the name of each level, in any capitalisation, to that level, and every other string to Info.", "quantifier": "every level and every string", "why_tests_cant": "infinite set of strings", "anchors": ["sm_logging/src/Levels.cpp: fromString"]}
{"id": "C51", "title": "Quaternion product is associative, norm-multiplicative with inverse", "statement": "qplus/qoplus are the two orders of one associative bilinear product with identity quatIdentity; the norm is multiplicative; quatInv is the inverse on unit quaternions; quatPlus/quatOPlus are the matrix forms.", "quantifier": "all real quaternions", "why_tests_cant": "continuum", "anchors": ["sm_kinematics/src/quaternion_algebra.cpp: qplus, qoplus, quatPlus, quatOPlus, quatInv, quatIdentity"]}
{"id": "C52", "title": "quat2r is a homomorphism into rotations", "statement": "For every unit quaternion quat2r(q) is orthogonal with determinant 1, quat2r of a product is the product of matrices, q and -q give the same rotation, and quatRotate(q,v) = quat2r(q) v preserving lengths.", "quantifier": "all unit quaternions and vectors", "why_tests_cant": "continuum", "anchors": ["sm_kinematics/src/quaternion_algebra.cpp: quat2r, quatRotate"]}
{"id": "C53", "title": "r2quat inverts quat2r", "statement": "r2quat(quat2r(q)) is q or -q for every unit quaternion, and quat2r(r2quat(C)) = C for every rotation matrix.", "quantifier": "all unit quaternions/rotations, all four numeric branches", "why_tests_cant": "four branches over a continuum", "anchors": ["sm_kinematics/src/quaternion_algebra.cpp: r2quat"]}
{"id": "C54", "title": "Axis-angle to quaternion gives unit quaternions of the right rotation", "statement": "axisAngle2quat(a) is a unit quaternion representing the rotation by |a| about a, for every a. quat2AxisAngle undoes it: exp(log q) = +-q and log(exp a) = a for |a| < 2 pi.", "quantifier": "all axis-angle vectors, including the small-angle branch", "why_tests_cant": "continuum; the series branch only differs by 1e-8", "anchors": ["sm_kinematics/src/quaternion_algebra.cpp: axisAngle2quat, quat2AxisAngle"]}
{"id": "C55", "title": "Elementary and Euler rotations are rotations and invert", "statement": "Rx,Ry,Rz (Cx,Cy,Cz) are orthogonal with determinant 1, add angles and have the transpose as inverse; rph2R and rph2C are products of the elementary rotations; away from pitch +-90 degrees R2rph and C2rph recover the angles from the matrix and the matrix from the angles; at the singularity R2rph does not.", "quantifier": "all angles", "why_tests_cant": "continuum", "anchors": ["sm_kinematics/src/rotations.cpp: Rx, Ry, Rz, rph2R, R2rph, Cx, Cy, Cz, rph2C, C2rph"]}
{"id": "C56", "title": "axisAngle2R implements Rodrigues", "statement": "axisAngle2R(angle, axis) is the rotation by angle about the axis for every angle and unit axis, its inverse is the rotation by the opposite angle.", "quantifier": "all angles and axes", "why_tests_cant": "continuum; negative angles take the wrong branch", "anchors": ["sm_kinematics/src/rotations.cpp: axisAngle2R, crossMx"]}
{"id": "C57", "title": "Rigid transformations form a group acting on points", "statement": "Transformation composition, inverse and action agree with 4x4 matrix multiplication: (T1*T2)*p = T1*(T2*p), T*T.inverse() = identity, T() of a product is the product, for Euclidean and homogeneous points alike.", "quantifier": "all transformations and points", "why_tests_cant": "continuum", "anchors": ["sm_kinematics/src/Transformation.cpp: operator*, inverse, T", "sm_kinematics/src/transformations.cpp: rt2Transform, inverseTransform"]}
{"id": "C58", "title": "Homogeneous points respect scale", "statement": "toHomogeneous/fromHomogeneous round-trip; adding and subtracting homogeneous points equals adding and subtracting the Euclidean points for every pair of non-zero scales; Transformation*HomogeneousPoint commutes with toEuclidean.", "quantifier": "all homogeneous points with non-zero last coordinate", "why_tests_cant": "continuum", "anchors": ["sm_kinematics/src/HomogeneousPoint.cpp: operator+, operator-, toEuclidean", "sm_kinematics/src/homogeneous_coordinates.cpp"]}
{"id": "C59", "title": "Uncertainty propagation keeps covariances symmetric and positive semidefinite", "statement": "All operations on uncertain vectors, points and transformations return a symmetric positive-semidefinite covariance when given such covariances; covariance accessors and setters in different parametrisations are mutually inverse.", "quantifier": "all covariances and means", "why_tests_cant": "continuum", "anchors": ["sm_kinematics/src/UncertainTransformation.cpp: operator*, inverse, UOplus, setUOplus", "sm_kinematics/src/UncertainHomogeneousPoint.cpp", "sm_kinematics/include/sm/kinematics/implementation/UncertainVector.hpp"]}
{"id": "C60", "title": "Slerp/lerp interpolate", "statement": "qslerp(q0,q1,0)=q0 and qslerp(q0,q1,1)=\u00b1q1, and every intermediate quaternion is a unit quaternion; interpolateTransformations/slerpTransformations return the end poses at the end times.", "quantifier": "all unit quaternions and parameters", "why_tests_cant": "continuum", "anchors": ["sm_kinematics/src/quaternion_algebra.cpp: qslerp, lerp", "sm_kinematics/src/Transformation.cpp: interpolateTransformations, slerpTransformations"]}
{"id": "C61", "title": "S-matrices and angular-velocity Jacobians of the rotational parametrisations are the derivatives they claim to be", "statement": "For EulerAnglesYawPitchRoll/ZYX/ZXY, EulerRodriguez and RotationVector: parametersToRotationMatrix always yields a rotation; parametersToSMatrix maps parameter rates to the angular velocity with which that rotation turns, along every differentiable curve; angularVelocityAndJacobian returns S(p)\u00b7pdot and its exact derivative in (p,pdot); RotationVector's parametersToInverseSMatrix is the inverse of its S-matrix.", "quantifier": "all parameters and parameter rates (rotation vectors longer than 1e-14)", "why_tests_cant": "continuum", "anchors": ["sm_kinematics/src/EulerAnglesYawPitchRoll.cpp", "sm_kinematics/src/EulerAnglesZYX.cpp", "sm_kinematics/src/EulerAnglesZXY.cpp", "sm_kinematics/src/EulerRodriguez.cpp", "sm_kinematics/src/RotationVector.cpp"]}
{"id": "C62", "title": "Pose perturbation operators are mutually consistent", "statement": "boxMinus and the Jacobian matrices returned by transformationAndJacobian / inverseTransformationAndJacobian are the exact linear parts of the perturbed transformation; boxTimes(T) maps perturbations through T.", "quantifier": "all transformations and points", "why_tests_cant": "continuum", "anchors": ["sm_kinematics/src/transformations.cpp: boxMinus, boxTimes, transformationAndJacobian, inverseTransformationAndJacobian"]}
{"id": "C63", "title": "A value store viewed as a property tree reads the store", "statement": "Through asPropertyTree() a key (with or without leading slash) reads the store's value of that name; through a child view a, key k reads the store's a/k; existence agrees.", "quantifier": "every store, key, child and default", "why_tests_cant": "all stores and keys", "anchors": ["sm_value_store/src/PropertyTreeValueStore.cpp: ValueStorePropertyTreeImpl, translateKey, asPropertyTree"]}
{"id": "C64", "title": "The switching timestamp corrector works on a recent stretch of the observations", "statement": "Fed through the three-argument correctTimestamp with a non-negative switching period, the corrector never dereferences a missing backup corrector, never reports time going backwards for increasing remote times, and at every moment its hull is the convex hull of a contiguous most recent stretch of the observations.", "quantifier": "every history of observations and every non-negative switching period", "why_tests_cant": "unbounded histories with any number of switches", "anchors": ["sm_timing/include/sm/timing/implementation/TimestampCorrector.hpp: correctTimestamp (3 arguments), span", "sm_timing/include/sm/timing/TimestampCorrector.hpp: reset"]}
{"id": "C65", "title": "Log messages are delivered", "statement": "Every message logged by a thread outside the logger is handed to the logger exactly once and in order, whatever the logger does (log itself, return, throw); messages logged from inside the logger by the same thread are dropped.", "quantifier": "every history of log calls of a thread and every behaviour of the logger", "why_tests_cant": "all histories and loggers", "anchors": ["sm_logging/src/LoggingGlobals.cpp: print"]}
{"id": "C66", "title": "Long log messages are not truncated", "statement": "After any history of earlier messages, a message of any length is delivered whole, up to its first NUL.", "quantifier": "every history of message lengths and format failures, every message", "why_tests_cant": "buffer growth over all lengths and histories", "anchors": ["sm_logging/src/LoggingGlobals.cpp: vformatToBuffer, formatToBuffer, print"]}
{"id": "C67", "title": "Angle utilities", "statement": "angleMod returns an angle in [-pi, pi] that differs from its argument by a whole number of turns; deg2rad and rad2deg multiply by pi/180 and 180/pi to the precision of their literals and undo each other to that precision.", "quantifier": "all real angles", "why_tests_cant": "continuum", "anchors": ["sm_kinematics/src/rotations.cpp: angleMod, deg2rad, rad2deg"]}
{"id": "C68", "title": "Uncertainty propagation is correct to first order", "statement": "The covariance returned by every operation on uncertain vectors, scalars, homogeneous points and transformations is J U J^T (summed over independent arguments), with J the derivative of the same operation on the means; so the covariances of Euclidean points add up under addition and subtraction.", "quantifier": "all means and covariances where the operation is differentiable", "why_tests_cant": "continuum; a wrong sign or a missing factor in a covariance is invisible to tests of symmetric cases", "anchors": ["sm_kinematics/src/UncertainTransformation.cpp: operator*, inverse, setUOplus", "sm_kinematics/src/UncertainHomogeneousPoint.cpp: operator+, operator-, normalize, U3, setUOplus", "sm_kinematics/include/sm/kinematics/implementation/UncertainVector.hpp", "sm_kinematics/src/HomogeneousPoint.cpp: operator+, operator-", "sm_kinematics/src/Transformation.cpp: operator*(UncertainTransformation), operator*(UncertainHomogeneousPoint), rotate"]}
{"id": "C69", "title": "Rotation parameters and rotation matrices convert back and forth", "statement": "For every RotationalKinematics parametrisation, rotationMatrixToParameters(parametersToRotationMatrix(p)) = p on the regular range and parametersToRotationMatrix(rotationMatrixToParameters(C)) = C for every rotation matrix C.", "quantifier": "all rotation matrices and all parameters", "why_tests_cant": "continuum; the failing set (half turns, gimbal lock) has measure zero", "anchors": ["sm_kinematics/src/EulerAnglesYawPitchRoll.cpp", "sm_kinematics/src/EulerAnglesZYX.cpp", "sm_kinematics/src/EulerAnglesZXY.cpp", "sm_kinematics/src/EulerRodriguez.cpp", "sm_kinematics/src/RotationVector.cpp: rotationMatrixToParameters"]}
{"id": "C70", "title": "Jacobians of the quaternion exponential and logarithm", "statement": "quatExpJacobian(v) is the derivative of axisAngle2quat at v; quatLogJacobian(p) and quatLogJacobian2(p) are the derivative of quat2AxisAngle at the unit quaternion p along unit quaternions; expDiffMat and logDiffMat are inverse to each other; updateQuat(q, dq) is the quaternion of dq times q and quatJacobian(q) its derivative in dq at 0.", "quantifier": "all rotation vectors, all unit quaternions, all directions of differentiation", "why_tests_cant": "continuum; finite differences check a Jacobian at single points only and to a tolerance", "anchors": ["sm_kinematics/src/quaternion_algebra.cpp: quatExpJacobian, expDiffMat, quatLogJacobian, quatLogJacobian2, logDiffMat, updateQuat, quatJacobian"]}
{"id": "C71", "title": "A view lists exactly the children of its entry", "statement": "getChildren() of a property tree view throws iff the view's entry does not exist; otherwise it lists every child of that entry in order, and reading key k in the child listed under a name (first of that name) gives what reading name/k in the view gives.", "quantifier": "all trees, views and keys", "why_tests_cant": "unbounded trees and names; the failing names contain a character no test uses", "anchors": ["sm_property_tree/src/BoostPropertyTreeImplementation.cpp: getChildren", "sm_property_tree/src/PropertyTree.cpp: getChildren"]}
{"id": "C72", "title": "threePointSvd returns an optimal rigid alignment", "statement": "threePointSvd(p0, p1) returns a transformation T_0_1 with a proper rotation that minimises the sum of squared distances |p0_i - T p1_i|^2 over every rigid transformation; if the point sets are related exactly by a rigid motion the residual is zero, and if the p1 points are not collinear the motion is recovered.", "quantifier": "all point sets of any size, all competing rotations and translations", "why_tests_cant": "continuum of inputs and of competitors; a test checks one synthetic motion only", "anchors": ["sm_kinematics/src/three_point_methods.cpp: threePointSvd"]}
{"id": "C73", "title": "qMethod returns an optimal rigid alignment", "statement": "qMethod(p0, p1) has the same optimality, exactness and recovery properties as threePointSvd.", "quantifier": "all point sets of any size, all competing rotations and translations", "why_tests_cant": "continuum of inputs and competitors", "anchors": ["sm_kinematics/src/three_point_methods.cpp: qMethod"]}
{"id": "C74", "title": "A conjunction of SM_CHECKSAME / SM_CHECKMEMBERSSAME is true iff every check holds", "statement": "Joining any number of the comparison macros with && gives an expression that is true exactly if every compared pair is the same, and that reports the failed comparison if verbose.", "quantifier": "all numbers and mixtures of checks, all outcomes, verbose or silent", "why_tests_cant": "the number of checks is unbounded and the unit tests only use the form 'same = same && MACRO'", "anchors": ["sm_common/include/sm/serialization_macros.hpp: SM_CHECKSAME, SM_CHECKMEMBERSSAME"]}
{"id": "C75", "title": "isBinaryEqual of the kinematics classes compares every member", "statement": "isBinaryEqual of HomogeneousPoint, UncertainHomogeneousPoint, Transformation, UncertainTransformation, UncertainVector<D> and UncertainVector<1> returns true exactly if all members have equal coefficients.", "quantifier": "all pairs of objects, all scalar comparisons, verbose or silent", "why_tests_cant": "a test that changes both members at once, as the existing ones do, cannot see that one of them is ignored", "anchors": ["sm_kinematics/src/Transformation.cpp: isBinaryEqual", "sm_kinematics/src/UncertainTransformation.cpp: isBinaryEqual", "sm_kinematics/src/UncertainHomogeneousPoint.cpp: isBinaryEqual", "sm_kinematics/src/HomogeneousPoint.cpp: isBinaryEqual", "sm_kinematics/include/sm/kinematics/implementation/UncertainVector.hpp: isBinaryEqual"]}
{"id": "C76", "title": "The comparison macros follow pointers", "statement": "SM_CHECKSAME on objects, raw pointers and boost::shared_ptr: both null is equal, one null is different, otherwise the pointees are compared with isBinaryEqual or ==.", "quantifier": "all types built from classes, pointers and shared pointers, all values", "why_tests_cant": "unbounded nesting and values", "anchors": ["sm_common/include/sm/serialization_macros.hpp: isSame, HasIsBinaryEqual"]}
{"id": "C77", "title": "sm::opencv::isBinaryEqual decides equality of matrices", "statement": "isBinaryEqual(m1, m2) returns true exactly if the matrices have the same size, type and elements, and reads no memory outside of them.", "quantifier": "all pairs of matrices, including views into larger matrices", "why_tests_cant": "all sizes, types and steps; the failing pairs agree in the number of rows only", "anchors": ["sm_opencv/include/sm/opencv/serialization.hpp: isBinaryEqual"]}
{"id": "C78", "title": "OpenCV matrices and key points survive serialization", "statement": "Loading a saved cv::Mat (or Point2f, KeyPoint) gives the same size, type and elements, whatever the destination held, and leaves the rest of the archive where it is.", "quantifier": "all matrices including views, all destinations, all archive contents that follow", "why_tests_cant": "views, steps and destinations vary without bound", "anchors": ["sm_opencv/include/sm/opencv/serialization.hpp: save, load, serialize"]}
{"id": "C79", "title": "Eigen matrices survive serialization", "statement": "Loading a saved Eigen matrix into any matrix type that can hold its size gives the same coefficients; a type that cannot hold it throws SerializationException and leaves the destination alone.", "quantifier": "all sizes, fixed and dynamic types, storage orders, archive formats and destinations", "why_tests_cant": "unbounded sizes and type combinations", "anchors": ["sm_eigen/include/sm/eigen/serialization.hpp: save, load"]}
{"id": "C80", "title": "Kinematics objects survive serialization", "statement": "Loading a saved Transformation, UncertainTransformation, HomogeneousPoint, UncertainHomogeneousPoint or UncertainVector gives the same object in every archive format; an object of a later class version is refused and the destination keeps its value.", "quantifier": "all objects, formats, destinations and following archive contents", "why_tests_cant": "continuum of objects; versions that do not exist yet", "anchors": ["sm_kinematics/include/sm/kinematics/*.hpp: save, load"]}
{"id": "C81", "title": "Objects saved to a file are loaded from it", "statement": "save/load, save_txt/load_txt, save_xml/load_xml: the saved object is read back, no other file changes, an unopenable file throws and nothing is changed, a file of another format throws; an empty XML tag stands for 'object'.", "quantifier": "all objects, paths, tags, formats and file systems", "why_tests_cant": "unbounded; depends on the state of the file system", "anchors": ["sm_boost/include/sm/boost/serialization.hpp"]}
{"id": "C82", "title": "A file cut short is not loaded", "statement": "If the writing of a file was interrupted at any point, loading it throws.", "quantifier": "all crash points, all objects and formats", "why_tests_cant": "every crash point", "anchors": ["sm_boost/include/sm/boost/serialization.hpp", "sm_eigen/include/sm/eigen/serialization.hpp"]}
{"id": "C83", "title": "Seeding makes the random numbers reproducible", "statement": "After sm::random::seed(s) the results of every later sequence of calls of normal, randn, uniform, rand, randLU, randLUi and sm::eigen::randn are a function of the lower 32 bits of s: nothing drawn or seeded before has an influence. uniform() yields the engine's outputs in order, scaled into [0,1).", "quantifier": "all histories of calls before the seed, all seeds, all sequences of calls after it, every engine and normal distribution that satisfy boost's contract", "why_tests_cant": "a test compares two sequences after particular histories; a sample cached by the normal distribution shows up only for some histories", "anchors": ["sm_random/src/random.cpp", "sm_random/include/sm/random.hpp", "sm_eigen/src/random.cpp: randn", "Random::seed"]}
{"id": "C84", "title": "randLU stays in its half-open range", "statement": "For doubles lo < hi, randLU(lo, hi) returns a number x with lo <= x < hi.", "quantifier": "all pairs of doubles and all outputs of the engine, in rounded double arithmetic", "why_tests_cant": "the upper bound is only hit for rare samples and rare intervals", "anchors": ["sm_random/src/random.cpp", "sm_random/include/sm/random.hpp", "randLU"]}
{"id": "C85", "title": "randLUi draws uniformly from its half-open range", "statement": "For ints lo < hi, randLUi(lo, hi) returns an int in [lo, hi), each value of the range can occur, and for ranges of up to 2^21 values each occurs for equally many engine outputs up to one.", "quantifier": "all pairs of ints and all 2^32 outputs of the engine, in rounded double arithmetic", "why_tests_cant": "there are 2^32 outputs and 2^63 ranges", "anchors": ["sm_random/src/random.cpp", "sm_random/include/sm/random.hpp", "randLUi"]}
{"id": "C86", "title": "Numerical Jacobians are central differences", "statement": "estimateJacobian evaluates the function only at the operating point and at the two points displaced in one coordinate by max(|x|*eps, eps); it is exact for functions quadratic in each coordinate, its error for smooth functions is at most a sixth of the bound of the third derivative times the squared step, and it converges to the derivative as eps tends to 0.", "quantifier": "all dimensions, functions, operating points and positive eps (exact arithmetic)", "why_tests_cant": "functions and operating points are arbitrary", "anchors": ["sm_eigen/include/sm/eigen/NumericalDiff.hpp", "NumericalDiff::estimateJacobian"]}
{"id": "C87", "title": "computeMatrixSqrt returns a square root", "statement": "For every symmetric positive semidefinite matrix A, computeMatrixSqrt(A) returns S with S S^T = A, whatever pivoting the LDLT decomposition chose; no other matrix has such a root.", "quantifier": "all matrix sizes, all positive semidefinite matrices, all decompositions that satisfy Eigen's contract (exact arithmetic)", "why_tests_cant": "sizes, entries and pivot orders are unbounded", "anchors": ["sm_eigen/include/sm/eigen/matrix_sqrt.hpp", "computeMatrixSqrt"]}
{"id": "C88", "title": "The Eigen test helpers decide what they claim", "statement": "compareRelative succeeds only for finite values whose relative difference is within tolerance; the matrix assertions report nothing exactly for same-size matrices whose elements all pass and read only existing elements; randomCovariance is symmetric positive definite; the finiteness assertion throws iff an element is infinite or NaN.", "quantifier": "all matrices of all sizes and all floating values including infinities and NaN", "why_tests_cant": "special values and sizes are unbounded; the helpers are the tests themselves", "anchors": ["sm_eigen/include/sm/eigen/gtest.hpp", "sm_eigen/include/sm/eigen/assert_macros.hpp", "compareRelative", "assertNear", "expectNear", "randomCovariance", "SM_ASSERT_MAT_IS_FINITE"]}
{"id": "C89", "title": "An assertion that lets a value pass establishes its condition", "statement": "SM_ASSERT_* with side-effect-free arguments does nothing iff the asserted relation holds; otherwise it throws an exception of the given type whose text names the type, the place, the relation that was tested, the values and the message, and leaves the state as it was.", "quantifier": "all macros, all values including infinities and NaN, all states, in plain and debug form", "why_tests_cant": "values, NaN among them, and the two dozen macros are too many to enumerate", "anchors": ["sm_common/include/sm/assert_macros.hpp", "SM_ASSERT_LT", "SM_ASSERT_GE_LT", "SM_ASSERT_POSITIVE", "SM_ASSERT_NEAR", "SM_ASSERT_FINITE", "sm_throw_exception", "sm_common/include/sm/source_file_pos.hpp"]}
{"id": "C90", "title": "Assertions evaluate their arguments once, and debug assertions change nothing in release builds", "statement": "An assertion that does not throw evaluates each argument exactly once and tests the value of that evaluation; a _DBG assertion is the plain one in debug builds and is nothing otherwise, so that removing it does not change a run whose arguments have no side effects.", "quantifier": "all argument expressions with arbitrary side effects, all states, all build settings", "why_tests_cant": "argument expressions are arbitrary programs", "anchors": ["sm_common/include/sm/assert_macros.hpp", "SM_ASSERT_GE_LT", "SM_ASSERT_LT_DBG", "SM_ALWAYS_ASSERT"]}
{"id": "C91", "title": "SM_ASSERT, SM_ASSERT_MSG and SM_ASSERT_CMD act iff the condition is false", "statement": "In builds without NDEBUG the statement reports and stops (or runs its command) exactly if the condition, as C++ reads it on its own, is false; with NDEBUG it does nothing.", "quantifier": "all conditions built from operands, !, comparisons, && and ||, of any depth", "why_tests_cant": "conditions are arbitrary expressions; the macros paste their text", "anchors": ["sm_logging/include/sm/logging/assert.h", "SM_ASSERT", "SM_ASSERT_MSG", "SM_ASSERT_CMD"]}
{"id": "C92", "title": "Transformations are read from property trees", "statement": "transformationFromPropertyTree returns the transformation with the unit quaternion in the direction of q_a_b/{x,y,z,w} and the translation t_a_b_a/{x,y,z} below the view; if an entry is missing or not a number it throws the exception of the first such entry; a transformation stored under these keys is read back.", "quantifier": "all trees, all views, all texts, all numbers", "why_tests_cant": "trees, namespaces and texts are unbounded", "anchors": ["sm_kinematics/include/sm/kinematics/property_tree.hpp", "transformationFromPropertyTree", "sm_eigen/include/sm/eigen/property_tree.hpp", "vector3FromPropertyTree", "quaternionFromPropertyTree"]}
{"id": "C93", "title": "The type traits name the right types", "statement": "StripReference, StripConstReference, StripConstPtr, AddReference, AddConstReference, AddPtr, AddConstPtr, IsReferenceType, IsPointerType and SameType yield, for every C++ type, the type (or truth value) their names promise, and their specializations are never ambiguous.", "quantifier": "all types built from const, references and pointers, to any depth", "why_tests_cant": "the types are unbounded; a test instantiates a few", "anchors": ["sm_common/include/sm/typetraits.hpp"]}
{"id": "C94", "title": "Assignments given as strings are found in the tree", "statement": "loadString/loadStrings (also of command line arguments): the compact notation of a configuration with ordinary keys and values yields exactly this configuration; every assignment a/b=value can be read back.", "quantifier": "all configurations, any nesting depth, any number of strings", "why_tests_cant": "infinitely many configurations", "anchors": ["sm_property_tree/src/BoostPropertyTreeImplementation.cpp: loadString", "sm_property_tree/src/BoostPropertyTree.cpp: loadStrings"]}
{"id": "C95", "title": "load and save choose the format by the file's extension", "statement": "load/save use XML, INI, JSON or INFO exactly if the name ends in .xml, .ini, .json, .info and throw InvalidFormatException otherwise, without touching tree or files; what was saved under a name is loaded from it; a failing load leaves the tree unchanged.", "quantifier": "all file names, trees, file systems", "why_tests_cant": "all names and trees", "anchors": ["sm_property_tree/src/BoostPropertyTree.cpp: load, save, getFileFormatAndThrowIfUnknown"]}
{"id": "C96", "title": "findFile returns only existing files", "statement": "findFile(name, variable) returns directory/name (exactly one slash added if needed) if the variable is set and the file exists, and throws runtime_error otherwise.", "quantifier": "all environments, file systems, names", "why_tests_cant": "all environments", "anchors": ["sm_property_tree/src/BoostPropertyTreeSupport.cpp: findFile"]}
{"id": "C97", "title": "What is put into MATLAB is got back", "statement": "put/putEigen followed by get/getEigen under the same name returns the value, and no other variable changes.", "quantifier": "all values, matrices of any size, names, workspaces", "why_tests_cant": "unbounded values; needs MATLAB", "anchors": ["sm_matlab/src/Engine.cpp", "sm_matlab/include/sm/matlab/Engine.hpp"]}
{"id": "C98", "title": "MATLAB getters return the value of the variable or fail cleanly", "statement": "get/getEigen return false exactly if there is no such variable, throw for a variable of another type, return its value otherwise, and leave their argument alone unless they return true.", "quantifier": "all workspaces and names", "why_tests_cant": "all variable types and shapes", "anchors": ["sm_matlab/src/Engine.cpp"]}
{"id": "C99", "title": "Only variable names reach MATLAB", "statement": "names are accepted exactly if they are MATLAB identifiers; a call with another name throws InvalidVariableNameException without effect.", "quantifier": "all strings", "why_tests_cant": "all strings", "anchors": ["sm_matlab/src/Engine.cpp: assertValidVariableName"]}
{"id": "C100", "title": "MATLAB calls leave no memory behind", "statement": "every mxArray and buffer a call acquires is released when it returns or throws; none is released twice.", "quantifier": "all calls, outcomes and call sequences", "why_tests_cant": "leaks are not visible in results; unbounded sequences", "anchors": ["sm_matlab/src/Engine.cpp", "sm_matlab/include/sm/matlab/Engine.hpp"]}
{"id": "C101", "title": "The MATLAB connection is closed exactly once", "statement": "in every history of construction, initialize, stop, copying and destruction each opened connection is closed exactly once and no invalid handle is used; without a connection calls throw EngineNotInitializedException.", "quantifier": "all histories", "why_tests_cant": "all histories", "anchors": ["sm_matlab/src/Engine.cpp"]}
{"id": "C102", "title": "The MATLAB command line executes what is typed", "statement": "openCommandLine executes the lines typed, in order and unaltered, up to quit or exit.", "quantifier": "all inputs", "why_tests_cant": "all inputs", "anchors": ["sm_matlab/src/Engine.cpp: openCommandLine"]}
{"id": "C103", "title": "Python's operators on transformations and points give what C++ gives", "statement": "For all operands, `a*b`, `a+b`, `a-b` and `a.inverse()` in Python on Transformation, UncertainTransformation, HomogeneousPoint, UncertainHomogeneousPoint and vectors give the same object as the C++ operators; in general, overloads tried last-registered-first agree with C++ overload resolution exactly when overloads for base classes are registered before those for derived classes.", "quantifier": "every pair of operands; every class hierarchy and overload table", "why_tests_cant": "a test checks some operand pairs; a wrong overload silently drops uncertainties and only an exhaustive or general argument shows which pairs are affected", "anchors": ["sm_python/src/exportTransformation.cpp, sm_python/src/exportHomogeneousPoint.cpp: operator registrations"]}
{"id": "C104", "title": "Pickling keeps objects", "statement": "A Transformation or UncertainTransformation that is pickled and unpickled in Python is the same object as before, and a state that is not an archive is refused.", "quantifier": "every object, every state string, every scalar codec of the archive", "why_tests_cant": "all values, including those whose scalar spelling or covariance is unusual", "anchors": ["sm_python/src/exportTransformation.cpp: def_pickle", "sm_boost serialization"]}
{"id": "C105", "title": "Ids in Python are their values", "statement": "An id handed to Python is the number that is its value, comes back as the same id, and a Python number that is not the value of an id is refused.", "quantifier": "every id, every Python int and long", "why_tests_cant": "64-bit boundaries and out-of-range numbers; all values matter", "anchors": ["sm_python/include/sm/python/Id.hpp: Id_python_converter"]}
{"id": "C106", "title": "Python's logging functions log what the C++ statements log", "statement": "For every state of the level and the enabled streams, every name and message, the Python functions log<Level> and log<Level>Named log exactly when the C++ statement of that level and name would, and with the same event.", "quantifier": "every level, stream set, name, message, call site", "why_tests_cant": "all combinations of names, prefixes and stream states", "anchors": ["sm_python/src/Logging.cpp: smLog, smLogNamed", "sm_python/python/sm/__init__.py: log, logNamed, log<Level>"]}
{"id": "C107", "title": "Handles of value stores are live", "statement": "A handle to a key reads what the store reads; an update through it is read by the handle, by the store that gave it (through any layers, prefixes and verbose wrappers) and changes no other key; a handle taken when the key exists can be updated.", "quantifier": "every store structure, tree contents, key, value, and later state of the trees", "why_tests_cant": "nested store structures and aliasing cannot be enumerated", "anchors": ["sm_value_store/include/sm/value_store/ValueStore.hpp: ValueHandle", "sm_value_store/src/PropertyTreeValueStore.cpp: getFromPt, PropertyTreeValueStoreValueHanlder"]}
{"id": "C108", "title": "Children of a store share its contents", "statement": "What is updated through a child of a store, from getChild or getChildren, is read by the store and vice versa; updates through stores without common trees do not interfere.", "quantifier": "every tree, namespace, key, later update", "why_tests_cant": "aliasing over arbitrary histories", "anchors": ["sm_value_store/src/PropertyTreeValueStore.cpp: getChild, getChildren", "sm_property_tree/src/BoostPropertyTreeImplementation.cpp: getChildren", "sm_value_store/src/VerboseValueStore.cpp: getChild, getChildren"]}
{"id": "C109", "title": "Verbose stores are transparent and log each access once", "statement": "A verbose store gives what the wrapped store gives, and writes one line per successful getter with function, path and value, marked DEFAULT exactly when there was nothing to read; the lines of children are tagged with the whole way to them.", "quantifier": "every wrapped store, key, default, depth of children", "why_tests_cant": "arbitrary nesting and contents", "anchors": ["sm_value_store/src/VerboseValueStore.cpp: logValue, getChild, logAddValue"]}
{"id": "C110", "title": "Adding, saving and emptiness of value stores", "statement": "A key added to an extendible store is read back through any verbose wrappers; a store saves what it contains; a store is empty exactly when it has no keys.", "quantifier": "every store, key, value and tree", "why_tests_cant": "views with namespaces and nesting", "anchors": ["sm_value_store/src/PropertyTreeValueStore.cpp: addBool.., saveTo, canSave, isEmpty", "sm_value_store/src/VerboseValueStore.cpp: VerboseExtendibleValueStore"]}
{"id": "C111", "title": "Python's set(key, value) on value stores", "statement": "After store.set(key, value) the key exists and the getter for the value's type gives the value; the type of the value decides how it is stored.", "quantifier": "every store, key, Python value and flags", "why_tests_cant": "all prior contents and value types", "anchors": ["sm_python/python/sm/__init__.py: setExtendableValueStoreValue", "sm_python/src/exportValueStoreRef.cpp: set*/add*"]}
{"id": "C112", "title": "Timestamp correction in doubles never reads outside the hull", "statement": "With finite double times, whatever the rounding, correctTimestamp refuses an observation that is not later, accepts all others, and every answer is computed from two neighbouring points of the hull around the midpoint.", "quantifier": "every sequence of finite double observations and every rounding to nearest", "why_tests_cant": "rounding of the midpoint and of the comparisons depends on every bit of the input", "anchors": ["sm_timing/include/sm/timing/implementation/TimestampCorrector.hpp: correctTimestamp, isAboveTopLine, isAboveLine, getLocalTime", "sm_python/src/exportTimestampCorrector.cpp"]}
{"id": "C113", "title": "Accuracy of timestamp correction in doubles", "statement": "No accepted observation lies below the hull by more than rounding allows, and the returned time is the value of the line of the midpoint segment up to rounding; in particular it is not later than the measured local time.", "quantifier": "every sequence of double observations of bounded size and spacing", "why_tests_cant": "rounding errors add up over unbounded histories", "anchors": ["sm_timing/include/sm/timing/implementation/TimestampCorrector.hpp: correctTimestamp, getLocalTime, isAboveLine"]}
{"id": "C114", "title": "Timestamp correction with int64 times has no undefined behaviour", "statement": "With 64-bit integer times in range, correctTimestamp never overflows and never reads outside the hull, and the hull is the exact lower hull of the accepted observations.", "quantifier": "every sequence of int64 observations", "why_tests_cant": "products of differences and conversions to double depend on all values seen so far", "anchors": ["sm_timing/include/sm/timing/implementation/TimestampCorrector.hpp: correctTimestamp, isAboveLine, getLocalTime", "sm_python/src/exportTimestampCorrector.cpp"]}
{"id": "C115", "title": "Accuracy of timestamp correction with int64 times", "statement": "The returned integer time differs from the exact value of the line of the midpoint segment by less than one unit.", "quantifier": "every sequence of int64 observations that are close together", "why_tests_cant": "conversion to double loses low bits for all large values", "anchors": ["sm_timing/include/sm/timing/implementation/TimestampCorrector.hpp: getLocalTime"]}
{"id": "C116", "title": "Tolerant comparisons of doubles", "statement": "For doubles a, b and a tolerance greater than zero exactly one of approximatelyEqual, definitelyGreaterThan and definitelyLessThan is true; equality is reflexive and symmetric, the orders are converse, transitive and imply the exact order; with the default tolerance the answers are those of exact arithmetic, and other tolerances blur only the boundary by rounding errors.", "quantifier": "all double values (also infinities and NaN), all tolerances, all roundings to nearest", "why_tests_cant": "rounding, overflow and underflow depend on the operands; the boundary cases are sparse", "anchors": ["sm_common/include/sm/numerical_comparisons.hpp: approximatelyEqual", "sm_common/include/sm/numerical_comparisons.hpp: definitelyGreaterThan", "sm_common/include/sm/numerical_comparisons.hpp: definitelyLessThan"]}
{"id": "C117", "title": "Accuracy of solveQuadratic on doubles", "statement": "solveQuadratic throws iff the equation has no real solutions; otherwise both results are close, relatively, to the exact solutions of an equation whose coefficients are those given up to rounding errors.", "quantifier": "all double coefficients, all roundings to nearest", "why_tests_cant": "error bounds must hold for every triple of coefficients, including cancellation in the discriminant", "anchors": ["sm_common/include/sm/maths.hpp: solveQuadratic"]}
{"id": "C118", "title": "Rounding of doubles", "statement": "round(x) is the integer nearest to x, halves away from zero.", "quantifier": "all double values, all roundings to nearest", "why_tests_cant": "the exceptions are single doubles among 2^64", "anchors": ["sm_common/include/sm/round.hpp: round"]}
{"id": "C119", "title": "Chains of quaternion products in double precision", "statement": "However many rotations are multiplied with qplus, the result stays a unit quaternion: its computed norm stays within the 1e-4 that quat2r asserts, and it stays close to the exact product.", "quantifier": "all lists of nearly unit quaternions of doubles, all roundings to nearest", "why_tests_cant": "the rounding errors accumulate over arbitrarily long chains; a test sees one chain of one length", "anchors": ["sm_kinematics/src/quaternion_algebra.cpp: qplus, quat2r"]}
{"id": "C120", "title": "Transformations stay normalized in double precision", "statement": "The quaternion of a Transformation obtained from constructor calls by any number of products and inverses, in any order, is a unit quaternion up to rounding (12 units of 2^-53), so the unit length assertion of C() and T() cannot fire.", "quantifier": "all expression trees of constructor calls, operator* and inverse(), all roundings to nearest, all orders of summation in the norm", "why_tests_cant": "trees of unbounded size; the bound must not depend on the size", "anchors": ["sm_kinematics/src/Transformation.cpp: Transformation, operator*, inverse, C", "sm_kinematics/src/quaternion_algebra.cpp: qplus, quatInv, quat2r"]}
{"id": "C121", "title": "Accuracy of composed transformations in double precision", "statement": "A transformation built from n constructor calls, products and inverses differs from the exact one by at most n*2^-47 in the quaternion and n^2*2^-42 times the sum of the lengths of the given translations in the translation; a point mapped with it is equally accurate.", "quantifier": "all expression trees of up to 2^20 steps, all finite translations up to 2^100, all points, all roundings to nearest", "why_tests_cant": "error bounds over all doubles and all trees", "anchors": ["sm_kinematics/src/Transformation.cpp: operator*, inverse", "sm_kinematics/src/quaternion_algebra.cpp: quatRotate, qplus"]}
{"id": "C122", "title": "The rotation matrix in double precision", "statement": "The matrix C() of any transformation built by products and inverses has orthonormal rows and columns to within 2^-46 and determinant 1 to within 2^-45.", "quantifier": "all expression trees of constructor calls, operator* and inverse(), all roundings to nearest", "why_tests_cant": "a bound over all doubles and trees of any size", "anchors": ["sm_kinematics/src/Transformation.cpp: C", "sm_kinematics/src/quaternion_algebra.cpp: quat2r"]}
{"id": "C123", "title": "MatrixArchive::save on a full disk and at a crash", "statement": "For every history of the stream (room left on the device, buffering policy, moment at which the process is killed): the bytes found in the file after save are a prefix of the complete archive; with enough room the file is complete and save returns normally; an exception of save is raised only if the file is incomplete. Claims checked and refuted: 'a normal return means the file is complete' (the result of the final flush in close() is not looked at, so every archive smaller than the stream buffer is reported saved on a full disk) and 'after an interrupted save the file holds the old or the new content'. What an interrupted save leaves never makes load throw: it is undefined behaviour (unterminated read) or silently the leading entries.", "quantifier": "every archive, filter set, old content, room, buffering policy and kill point", "why_tests_cant": "Full devices, kill points and buffering policies are unbounded histories; a unit test writes to a disk with room.", "anchors": ["sm_matrix_archive/src/MatrixArchive.cpp: save, writeMatrixBlock, writeStringBlock, load"]}
{"id": "C124", "title": "Python views of a MatrixArchive", "statement": "For every archive reachable through the API, getNameList is the strictly increasing list of the matrix names, asDict and stringsAsDict map each name to exactly what the getters return and nothing else, their sizes add up to size(); the generic STL converters append in order / overwrite equal keys.", "quantifier": "every history of archive calls and every existing list or dict", "why_tests_cant": "Depends on the order and uniqueness of the keys after any history.", "anchors": ["sm_python/src/exportMatrixArchive.cpp: getNameList, asDict, stringsAsDict", "sm_python/include/sm/python/stl_converters.hpp: stlToList, stlToDict"]}
{"id": "C125", "title": "A log statement prints exactly when it should, and evaluates its arguments only then", "statement": "For every program (any number of log statements of any of the generated forms), every compile-time minimum severity and every history of setLevel / enableNamedStream / disableNamedStream / executions: an execution prints (once, to its stream, at its level) iff its severity is compiled in, its level reaches the level set last, its stream is empty or was last enabled, its condition holds and its _ONCE/_THROTTLE limit lets it pass; the message expression is evaluated iff it prints, the condition iff level and stream let it pass, the name only at the first execution; a statement below SMCONSOLE_MIN_SEVERITY has no effect at all. Claim checked and refuted: a _NAMED statement follows its name argument (the value of the first execution is kept forever).", "quantifier": "every program, build configuration, history and argument values", "why_tests_cant": "Histories of configuration changes and executions are unbounded; side effects of arguments are not looked at by tests.", "anchors": ["sm_logging/include/sm/logging/macros_generated.hpp", "sm_logging/include/sm/logging/console.hpp: SMCONSOLE_DEFINE_LOCATION, SM_LOG_COND, SM_LOG_ONCE, SM_LOG_THROTTLE", "sm_logging/include/sm/logging/macros.h: SMCONSOLE_MIN_SEVERITY", "sm_logging/src/LoggingGlobals.cpp: initializeLogLocation, notifyLoggerLevelsChanged, setLevel, enableNamedStream, disableNamedStream"]}
{"id": "C126", "title": "Packages with their own log name", "statement": "SM_PACKAGE_NAME gives the statements of a package their own stream. In a package named sm or sm.\u2026, enabling the stream of that name lets the statements print. Claim checked and refuted: this works for every package name; sm::logging::enableNamedStream always puts sm. in front, so the statements of a package with any other name can never be enabled through it (and are off from the start), except that an empty name always passes.", "quantifier": "every package name, program and history", "why_tests_cant": "A statement about all histories of the switching functions: no call sequence enables the stream.", "anchors": ["sm_logging/include/sm/logging/macros.h: SM_PACKAGE_NAME, SMCONSOLE_NAME_PREFIX", "sm_logging/src/LoggingGlobals.cpp: addDefaultPrefixIfMissing, enableNamedStream"]}
{"id": "C127", "title": "Futures of scheduled jobs", "statement": "The future handed out by scheduleFuture becomes ready exactly when its function has finished, with the function's value or its exception; it becomes broken_promise exactly when the queue is destroyed before the job ran; a ready future never changes; on a live, not stopped queue all futures become ready. A function that throws affects only its own future. After join() has returned every future is ready.", "quantifier": "every interleaving of clients and workers, every set of functions that return or throw, every pool size", "why_tests_cant": "depends on the schedule; unit tests see a few interleavings and hardly ever the destruction of a queue with jobs left", "anchors": ["sm_boost/include/sm/boost/implementation/JobQueue.hpp:scheduleFuture", "sm_boost/src/JobQueue.cpp:exec_loop", "sm_boost/src/JobQueue.cpp:join", "sm_boost/src/JobQueue.cpp:~JobQueue"]}
{"id": "C128", "title": "Jobs that use their own queue", "statement": "While a job does not return no waitForEmptyQueue(), join() or destructor returns, so a job calling one of them on its own queue never returns. Jobs may wait for futures of other jobs without blocking the pool for good.", "quantifier": "every interleaving, every pool size, every acyclic relation of which job waits for which future", "why_tests_cant": "a deadlock needs all workers to wait at once: it depends on the pool size and on the order of scheduling", "anchors": ["sm_boost/src/JobQueue.cpp:exec_loop", "sm_boost/src/JobQueue.cpp:waitForEmptyQueue", "sm_boost/src/JobQueue.cpp:~JobQueue", "sm_boost/include/sm/boost/implementation/JobQueue.hpp:scheduleFuture"]}
{"id": "C129", "title": "Timer statistics in double precision", "statement": "Count, minimum and maximum reported for a timer are exact; total and mean have a relative error of at most about two roundings per sample; the variance is not negative, the standard deviation printed is a number and the mean lies between minimum and maximum.", "quantifier": "every sequence of laps (non-negative nanoseconds) and every rounding of ties", "why_tests_cant": "rounding errors depend on the values and on the number of laps: most sequences a test tries behave", "anchors": ["sm_timing/src/Timer.cpp:addTime", "sm_timing/src/Timer.cpp:getMeanSeconds", "sm_timing/src/Timer.cpp:getVarianceSeconds", "sm_timing/src/Timer.cpp:print", "sm_timing/src/Timer.cpp:secondsToTimeString"]}
{"id": "C130", "title": "Timers used by several threads", "statement": "Timers may be used from several threads: no data race, every sample of every finished stop() or destroyed timer is counted exactly once for its tag, calls behave as if executed one after the other in an order respecting each thread's order and real time, addTime never indexes outside the registry, no call deadlocks and every call takes a bounded number of steps.", "quantifier": "every number of threads, every history of calls, every interleaving of their accesses to the shared data", "why_tests_cant": "a race or lost sample needs a particular interleaving inside a few instructions", "anchors": ["sm_timing/src/Timer.cpp:getHandle", "sm_timing/src/Timer.cpp:addTime", "sm_timing/src/Timer.cpp:reset", "sm_timing/src/Timer.cpp:getTag", "sm_timing/src/Timer.cpp:getTotalSeconds", "sm_timing/src/Timer.cpp:Timer", "sm_timing/src/Timer.cpp:m_mutex"]}
{"id": "C131", "title": "A read-only property tree object in Python protects the tree", "statement": "Python code that is given only ConstPropertyTree objects of a tree, and uses these and objects it makes itself, cannot change the tree by any sequence of calls; a statement changes at most the tree of the object whose method it calls; a call that raises AttributeError, ArgumentError or OverflowError changes nothing; no call changes an existing object.", "quantifier": "all sessions, all sets of held objects, all programs over the exported classes, all arguments", "why_tests_cant": "a test tries some sequences of calls; the protection must hold for all programs, including those that make views of views or own trees and pass objects to each other", "anchors": ["sm_python/src/exportPropertyTree.cpp:exportPropertyTree", "sm_property_tree/src/PropertyTree.cpp", "sm_property_tree/src/BoostPropertyTree.cpp"]}
{"id": "C132", "title": "Property tree objects in Python have the methods their C++ classes have", "statement": "Every property tree object in Python has a working getChild (REFUTED: getChild of a ConstPropertyTree always raises ArgumentError; getOrCreateBool does not exist, it is misspelled getOrCreatetBool). For objects that can write getChild(c) is PropertyTree(object, c); ConstPropertyTree(object, c) works for every object; and through these views a key k denotes the key c/k of the object.", "quantifier": "all sessions reachable from the import of the module, all objects, child names, keys, kinds of values and defaults", "why_tests_cant": "which C++ function Boost.Python calls depends on the class of the object; the views must agree for every key and every tree", "anchors": ["sm_python/src/exportPropertyTree.cpp:exportPropertyTree", "sm_property_tree/src/PropertyTree.cpp", "sm_property_tree/src/BoostPropertyTree.cpp"]}
{"id": "C133", "title": "Values written to a property tree from Python are read back through every view", "statement": "setX(key, a) with a Python value that converts succeeds and afterwards getX, getXDefault and getOrCreateX give the converted value through every object of the same tree whose key denotes the same entry; getXDefault and getOrCreateX return the same value, the first changes nothing, the second makes the key exist; values that do not convert are refused and change nothing.", "quantifier": "all reachable sessions, pairs of objects with a common tree, keys, kinds and Python values, for conversions to text that round-trip", "why_tests_cant": "the same entry can be reached through unboundedly many views and spellings", "anchors": ["sm_python/src/exportPropertyTree.cpp:exportPropertyTree", "sm_property_tree/src/PropertyTree.cpp", "sm_property_tree/src/BoostPropertyTree.cpp"]}
{"id": "C134", "title": "The progress reporters in Python count iterations and estimate the remaining time", "statement": "A loop that calls sample() once per iteration ends with the report n / n (REFUTED: the first call only starts the clock, the last report is n-1 / n), and the remaining time shown is zero once all steps are done (REFUTED: after more steps than announced it shows e.g. 59m 59s). After the samples at t0..tn the report shows n iterations, the time since t0, the mean time per iteration and n_total times that; Progress2 shows the remaining time cut off to whole seconds while no more steps than announced are done, raises ZeroDivisionError iff the steps after the first call sum to zero, and after reset is as good as new.", "quantifier": "all sequences of samples (times, steps), all announced numbers of iterations, any state before reset", "why_tests_cant": "the counts and estimates must be right after every history of samples; tests use short loops", "anchors": ["sm_python/python/sm/Progress.py:Progress", "sm_python/python/sm/Progress.py:Progress2"]}
{"id": "C135", "title": "showProgress shows what is done", "statement": "For 0 <= done < all showProgress(done, all) shows a percentage below 100 and leaves the formatting of std::cout as it was (REFUTED: it always leaves std::cout in fixed notation with two decimals; for counts above 2^53 it says Complete! too early; 99999 of 100000 is shown as 100.00%). For counts up to 2^53 it throws iff all <= 0 (or done > all, with debug assertions), says Complete! iff done >= all, otherwise shows the percentage within half a hundredth and rounding; the percentage never goes back.", "quantifier": "all integer counts, all roundings of the machine to nearest, any state of the stream", "why_tests_cant": "the comparison is made after two conversions and a division in doubles, which must come out right for every pair of counts", "anchors": ["sm_common/src/progress_info.cpp:showProgress", "sm_common/include/sm/progress_info.hpp:showProgress"]}
{"id": "C136", "title": "Time stamps of log messages", "statement": "The time stamp of a log message is the decimal notation, in seconds with six decimals, of the microseconds of the logger's clock (the rest of a microsecond dropped): it shows them exactly, a later message never shows fewer seconds, and sorting messages by the text of the stamp sorts them by time.", "quantifier": "every time a system clock with int64 nanoseconds can show, before and after the epoch, and every pair of them", "why_tests_cant": "the conversion goes through a double: whether microseconds survive depends on the magnitude, and no test runs in 2242 or before 2001", "anchors": ["sm_logging/src/Logger.cpp:11-29 Logger::currentTimeSecondsUtc, currentTimeString", "sm_logging/src/LoggingGlobals.cpp:189,222", "sm_logging/include/sm/logging/Logger.hpp"]}
{"id": "C137", "title": "Matlab loads what C++ saves", "statement": "loadMatrixArchive.m loads every file written by MatrixArchive::save without an error, and the struct has a field with the same sizes and values for every matrix and every string of the archive (that the filter selected), and no other field.", "quantifier": "every archive obtainable by any history of calls, with any filter, within the size limits of the format", "why_tests_cant": "two independent implementations of one format in two languages; no test runs both, and the failing archives need a particular history", "anchors": ["sm_matrix_archive/matlab/loadMatrixArchive.m", "sm_matrix_archive/src/MatrixArchive.cpp save, writeMatrixBlock, writeStringBlock"]}
{"id": "C138", "title": "C++ loads what Matlab saves", "statement": "If saveMatrixArchive.m does not raise an error, MatrixArchive::load reads the file and holds every field of the struct with the same sizes and values, and loadMatrixArchive.m gives back the same struct; if it raises an error, the file is unchanged or holds exactly the fields before the one that failed.", "quantifier": "every struct (any names, classes, dimensions, characters) and every character encoding of the file", "why_tests_cant": "depends on shapes, classes and character encodings over all structs", "anchors": ["sm_matrix_archive/matlab/saveMatrixArchive.m", "sm_matrix_archive/matlab/loadMatrixArchive.m", "sm_matrix_archive/src/MatrixArchive.cpp load, readBlock"]}
{"id": "C139", "title": "Several saves to one file from Matlab", "statement": "After any sequence of saves from Matlab, overwriting or appending, also to a file that C++ wrote, both Matlab and C++ find under each name the value saved last.", "quantifier": "every sequence of saves of any structs, every name", "why_tests_cant": "quantifies over histories of calls", "anchors": ["sm_matrix_archive/matlab/saveMatrixArchive.m", "sm_matrix_archive/matlab/loadMatrixArchive.m", "sm_matrix_archive/src/MatrixArchive.cpp load"]}
{"id": "C140", "title": "Truncated archives in Matlab", "statement": "A file that was cut off at any point (crash while writing, disk full) raises an error in loadMatrixArchive.m or gives fields that are exactly as saved.", "quantifier": "every saved struct or archive and every cut-off point", "why_tests_cant": "quantifies over crash points", "anchors": ["sm_matrix_archive/matlab/loadMatrixArchive.m", "sm_matrix_archive/matlab/saveMatrixArchive.m"]}
{"id": "C141", "title": "Printed table of timers", "statement": "After any history of timer calls, print shows every registered tag on exactly one line, in a column as wide as the longest tag, with the number, total, mean, deviation, minimum and maximum of the samples recorded since the tag's last reset. The sorted table shows the same lines, those with samples in decreasing order of the chosen criterion. Printing changes nothing.", "quantifier": "every history of timer operations, every order in which the hash map is traversed, every sort criterion", "why_tests_cant": "quantifies over all histories and traversal orders of a hash map", "anchors": ["sm_timing/src/Timer.cpp Timing::print, Timing::secondsToTimeString", "sm_timing/include/sm/timing/Timer.hpp SortType"]}
{"id": "C142", "title": "Collection of plots", "statement": "After any history of calls, PlotCollection.show opens one window with the given title and size whose tabs are exactly the names added and not deleted since, each with the figure added last, in the order in which they were opened; it shows nothing if no tab is left.", "quantifier": "every history of add_figure and delete_figure calls", "why_tests_cant": "quantifies over histories", "anchors": ["sm_python/python/sm/PlotCollection.py PlotCollection"]}
{"id": "C143", "title": "Drawn coordinate frame", "statement": "plotCoordinateFrame draws, for every rigid transformation, three lines of the given size and width, red, green and blue, from the image of the origin along the images of the axes; they are perpendicular and right-handed. The two-dimensional version draws the first two of them.", "quantifier": "every rigid transformation, size and line width", "why_tests_cant": "quantifies over real matrices", "anchors": ["sm_python/python/sm/plotCoordinateFrame.py plotCoordinateFrame, plot2DCoordinateFrame"]}
{"id": "C144", "title": "Listing archives with lsma", "statement": "lsma prints exactly the contents of the files given to it: file by file in the order of the arguments, every string and matrix once, sorted by name, with the file's name in front of each if there are several files. A file that cannot be opened or that load refuses ends the program after the files before it have been listed completely. Without arguments nothing is listed and the exit code is -1.", "quantifier": "every list of archives written by save, every unreadable file among them", "why_tests_cant": "quantifies over all files and argument lists", "anchors": ["sm_matrix_archive/src/lsma.cpp main"]}
{"id": "C145", "title": "Reset of a timestamp corrector", "statement": "After reset() a timestamp corrector gives the results of a new one: whatever calls of either form of correctTimestamp were made before, all later calls return or throw what they would on a fresh object.", "quantifier": "every history of calls before reset, every history after it, every switching period", "why_tests_cant": "quantifies over pairs of histories; the surviving state shows only after particular ones", "anchors": ["sm_timing/include/sm/timing/TimestampCorrector.hpp reset", "sm_timing/include/sm/timing/implementation/TimestampCorrector.hpp correctTimestamp"]}
{"id": "C146", "title": "Copies of timestamp correctors", "statement": "Copies of a timestamp corrector, made by construction or assignment, are independent: in every program every call gives the result it gives on an object of its own that received the same calls.", "quantifier": "every program of creations, copies, assignments, destructions and calls, on any number of objects", "why_tests_cant": "quantifies over programs and interleavings of calls on several objects", "anchors": ["sm_timing/include/sm/timing/TimestampCorrector.hpp TimestampCorrector", "sm_timing/include/sm/timing/implementation/TimestampCorrector.hpp correctTimestamp"]}
{"id": "C147", "title": "Uncertain objects behind references to their base class", "statement": "The product of transformations, or of a transformation and a point, has the uncertainty of both operands, also where an operand is seen through a reference to its base class (const Transformation &, const HomogeneousPoint &).", "quantifier": "all operands, all combinations of static and dynamic types, all covariances", "why_tests_cant": "quantifies over real matrices and all type combinations", "anchors": ["sm_kinematics/include/sm/kinematics/Transformation.hpp operator*", "sm_kinematics/include/sm/kinematics/UncertainTransformation.hpp operator*", "sm_kinematics/include/sm/kinematics/HomogeneousPoint.hpp operator+", "sm_kinematics/src/UncertainTransformation.cpp operator*"]}
{"id": "C148", "title": "Random transformations, points and vectors", "statement": "Whatever is drawn, setRandom() and setRandom(tMax, rMax) give rigid transformations, the latter with a translation of at most tMax and a rotation by at most rMax, and nothing within these bounds is excluded; random points have unit length and random covariances are covariances.", "quantifier": "all values the two random number generators can deliver, all bounds", "why_tests_cant": "quantifies over all draws; a test sees a few", "anchors": ["sm_kinematics/src/Transformation.cpp setRandom", "sm_kinematics/src/quaternion_algebra.cpp quatRandom, axisAngle2quat", "sm_kinematics/src/UncertainTransformation.cpp setRandom", "sm_kinematics/src/UncertainHomogeneousPoint.cpp setRandom", "sm_kinematics/include/sm/kinematics/implementation/UncertainVector.hpp setRandom"]}
{"id": "C149", "title": "Reproducible random objects", "statement": "What a program draws after sm::random::seed(s), random transformations, points and vectors included, does not depend on what happened before.", "quantifier": "all histories before the seed, all programs after it", "why_tests_cant": "quantifies over pairs of histories", "anchors": ["sm_random/src/random.cpp seed", "sm_kinematics/src/Transformation.cpp setRandom", "sm_kinematics/include/sm/kinematics/implementation/UncertainVector.hpp setRandom"]}
{"id": "C150", "title": "Rotation vectors are exponentials", "statement": "Turning a rotation vector into a rotation matrix or a quaternion is the exponential map: the result is the matrix exponential of the infinitesimal rotation by that vector (exactly where the vector is zero or not below the code's thresholds, within twice its length below them); rotations about one axis add up whatever the signs and sizes of the angles, and the opposite vector gives the inverse, transposed matrix.", "quantifier": "all rotation vectors, all multiples s, t of a vector, all angles", "why_tests_cant": "quantifies over all real vectors and compares with an infinite series", "anchors": ["sm_kinematics/src/rotations.cpp axisAngle2R, Rx, Ry, Rz", "sm_kinematics/src/RotationVector.cpp parametersToRotationMatrix", "sm_kinematics/src/quaternion_algebra.cpp axisAngle2quat", "sm_kinematics/include/sm/kinematics/quaternion_algebra.hpp qexp"]}
{"id": "C151", "title": "Ids drawn by several threads", "statement": "When any number of threads draw random ids at the same time, every call gets its own two consecutive outputs of the engine, none are skipped or mixed, an object never ends up with halves of two draws, ids are distinct as long as the engine does not repeat itself, and no schedule deadlocks.", "quantifier": "all schedules of any number of threads and calls, all engines, all initial objects", "why_tests_cant": "holds for every interleaving", "anchors": ["sm_common/include/sm/hash_id.hpp HashId::randomize, HashId::random"]}
{"id": "C152", "title": "Random numbers drawn by several threads", "statement": "Calls of sm::random::uniform, rand, randLU and randLUi from several threads each get their own output of the generator.", "quantifier": "all schedules of any number of threads and calls, all engines", "why_tests_cant": "holds for every interleaving", "anchors": ["sm_random/src/random.cpp uniform, rand, randLU, randLUi"]}
{"id": "C153", "title": "Changing uncertain points in place", "statement": "The functions that change an uncertain point in place (assignment, set, setZero, scale, oplus, convertToVector, convertToPoint, normalize) change the point as they change a point without uncertainty, and leave the covariance of the changed point, to first order.", "quantifier": "all uncertain points, all sequences of calls and arguments", "why_tests_cant": "quantifies over all real points, covariances and histories of calls", "anchors": ["sm_kinematics/include/sm/kinematics/HomogeneousPoint.hpp set", "sm_kinematics/src/HomogeneousPoint.cpp operator=, setZero, scale, oplus, convertToVector, convertToPoint, normalize", "sm_kinematics/src/UncertainHomogeneousPoint.cpp normalize"]}
{"id": "C154", "title": "Changing uncertain transformations in place", "statement": "The functions that change an uncertain transformation in place (assignment, set, setIdentity, oplus) change the transformation as they change one without uncertainty; set, setIdentity and assignment leave no uncertainty, like construction from the same arguments; adding a known translation leaves the covariance of the minimal update as it was.", "quantifier": "all uncertain transformations, all sequences of calls and arguments", "why_tests_cant": "quantifies over all real transformations, covariances and histories of calls", "anchors": ["sm_kinematics/src/Transformation.cpp set, setIdentity, oplus", "sm_kinematics/src/UncertainTransformation.cpp constructors, UOplus"]}
{"id": "C155", "title": "ptimeToTimeval", "statement": "ptimeToTimeval returns the timeval that stands for the given time, to the microsecond, with microseconds from 0 to 999999.", "quantifier": "all times, both resolutions and both widths of seconds of Boost", "why_tests_cant": "quantifies over all 2^64 times; undefined behaviour may pass a test", "anchors": ["sm_boost/include/sm/boost/ptime.hpp ptimeToTimeval"]}
{"id": "C156", "title": "Python's operators on uncertain vectors", "statement": "The operators +, -, *, / on uncertain vectors, uncertain scalars, arrays and numbers give in Python what they give in C++.", "quantifier": "all operators and operands, all values and covariances, all exported sizes", "why_tests_cant": "quantifies over all combinations of types and all real values", "anchors": ["sm_python/src/exportUncertainVector.cpp", "sm_kinematics/include/sm/kinematics/UncertainVector.hpp operators"]}
{"id": "C157", "title": "A tree saved as an INFO file is loaded back", "statement": "save to a file whose name ends in .info followed by load gives the same tree: all keys, values, children and their order; likewise for asInfoString.", "quantifier": "all trees (any nesting, any keys and values) and any other files on the disk", "why_tests_cant": "quantifies over all trees and all strings as keys and values", "anchors": ["sm_property_tree/src/BoostPropertyTreeImplementation.cpp loadInfo saveInfo asInfoString", "sm_property_tree/src/BoostPropertyTree.cpp load save"]}
{"id": "C158", "title": "A tree saved as an XML file is loaded back", "statement": "save to a file whose name ends in .xml followed by load gives the same tree: keys, values, children, attributes (children of <xmlattr>) and comments in order, whatever the human-readable and ignore-comments flags are (comments are dropped if they are ignored).", "quantifier": "all trees (any nesting, any keys and values, attributes and comments), all settings of the flags when writing and when reading", "why_tests_cant": "quantifies over all trees, all strings as keys and values and all flag combinations", "anchors": ["sm_property_tree/src/BoostPropertyTreeImplementation.cpp loadXml saveXml loadXmlFromString getXmlReadOptions", "sm_property_tree/include/sm/BoostPropertyTree.hpp isHumanReadableInputOutput isIgnoreComments"]}
{"id": "C159", "title": "A tree saved as an INI file is loaded back", "statement": "If save to a file whose name ends in .ini succeeds, load gives the same tree: keys, values, sections and their order; and a tree that was loaded from an INI file can be saved and comes back unchanged.", "quantifier": "all trees (any nesting, any keys and values) and all texts of INI files", "why_tests_cant": "quantifies over all trees, all strings as keys and values and all files", "anchors": ["sm_property_tree/src/BoostPropertyTreeImplementation.cpp loadIni saveIni", "sm_property_tree/src/BoostPropertyTree.cpp load save"]}
{"id": "C160", "title": "A tree saved as a JSON file is loaded back", "statement": "If save to a file whose name ends in .json succeeds, load gives the same tree: keys, values, children and their order, repeated and empty keys included; and a tree loaded from a JSON object or array can be saved and comes back unchanged.", "quantifier": "all trees (any nesting, any keys and values) and all texts of JSON files", "why_tests_cant": "quantifies over all trees, all strings as keys and values and all files", "anchors": ["sm_property_tree/src/BoostPropertyTreeImplementation.cpp loadJson saveJson", "sm_property_tree/src/BoostPropertyTree.cpp load save"]}
{"id": "C161", "title": "Transformations survive conversion to a matrix and back in doubles", "statement": "The quaternion read from a finite 4x4 matrix of doubles that is close to a rotation matrix is finite, has a non-negative scalar part and is close to that rotation's quaternion up to sign; converting any built transformation to its matrix and back keeps the translation exactly and the rotation to 2^-42; and repeating the conversion any number of times does not lose the rotation.", "quantifier": "all matrices near rotations, all programs building transformations, all numbers of conversions, every round-to-nearest mode", "why_tests_cant": "quantifies over all doubles and unboundedly many iterations; the error growth is too slow for a test of a few conversions", "anchors": ["sm_kinematics/src/quaternion_algebra.cpp r2quat quat2r", "sm_kinematics/src/Transformation.cpp Transformation(Eigen::Matrix4d) set T"]}
{"id": "C162", "title": "Updating a pose again and again keeps it a pose, in doubles", "statement": "However many small updates (up to 2^40) an estimator applies to a Transformation with oplus, its quaternion stays finite and of unit length to within 2^-45 per update although nothing normalizes it, the debug assertion of the conversion to a matrix never fires (up to 2^30 updates), the rotation is within 2^-42 per update (2^-45 if no rotation vector is shorter than 1/8000) of the exact composition of the rotations, the translation within 2^-52 per update relative to what was added; and axisAngle2quat is accurate to 2^-46 for every rotation vector.", "quantifier": "all built transformations, all sequences of up to 2^40 finite updates with rotation vectors up to length 8, every round-to-nearest, every C library whose sin and cos are within 2^-52, every order of Eigen's sum", "why_tests_cant": "the errors of one update are below what a test's tolerance can see and the number of updates is unbounded in practice; the inaccuracy of short vectors shows up in a narrow range only", "anchors": ["sm_kinematics/src/quaternion_algebra.cpp axisAngle2quat updateQuat isLessThenEpsilons4thRoot", "sm_kinematics/src/Transformation.cpp oplus"]}
{"id": "C163", "title": "Every JSON file is loaded as what it says", "statement": "load of a file whose name ends in .json, written by whatever program, gives exactly the tree the JSON text stands for (RFC 8259: white space, escapes, surrogate pairs, numbers, literals, nested objects and arrays); a file that is no JSON text is refused and leaves the tree as it was; a text never stands for two trees.", "quantifier": "all texts of any length and nesting", "why_tests_cant": "quantifies over all JSON texts and over all texts that are not JSON", "anchors": ["sm_property_tree/src/BoostPropertyTreeImplementation.cpp loadJson", "sm_property_tree/src/BoostPropertyTree.cpp load"]}
{"id": "C164", "title": "Every XML file is loaded as what it says", "statement": "load of a file whose name ends in .xml, written by whatever program, gives exactly the tree the XML document stands for (declaration, document type, processing instructions, comments, attributes in either quotes, references, CDATA, white space handling of the human-readable flag, nested elements), and a file that is no XML document is refused.", "quantifier": "all texts of any length and nesting, both settings of the human-readable and ignore-comments flags", "why_tests_cant": "quantifies over all XML documents and over all texts that are not XML", "anchors": ["sm_property_tree/src/BoostPropertyTreeImplementation.cpp loadXml getXmlReadOptions", "sm_property_tree/src/BoostPropertyTree.cpp load"]}
{"id": "C165", "title": "Every INI file is loaded as what it says", "statement": "load of a file whose name ends in .ini, written by whatever program, gives exactly the tree its lines stand for (blank lines, comments, entries with blanks around key and value, values containing =, sections, sections without entries); a file with a line that is none of these, with a key twice in a section or with a section named like a key or section before it is refused and leaves the tree as it was; a text never stands for two trees.", "quantifier": "all texts of any length", "why_tests_cant": "quantifies over all INI texts and over all texts that are not INI", "anchors": ["sm_property_tree/src/BoostPropertyTreeImplementation.cpp loadIni", "sm_property_tree/src/BoostPropertyTree.cpp load"]}
{"id": "C166", "title": "Every INFO file is loaded as what it says", "statement": "load of a file whose name ends in .info, written by whatever program or by hand, gives exactly the tree the INFO text stands for (words and quoted keys and data, escapes, strings over several lines, several entries in one line, children in braces, comments, up to 101 levels of #include); a file that is no INFO text (unbalanced braces, a brace without a key, a bad escape, an unfinished string) is refused and leaves the tree as it was; a text never stands for two trees.", "quantifier": "all texts of any length and nesting, all contents of the included files", "why_tests_cant": "quantifies over all INFO texts and over all texts that are not INFO", "anchors": ["sm_property_tree/src/BoostPropertyTreeImplementation.cpp loadInfo", "sm_property_tree/src/BoostPropertyTree.cpp load"]}
{"id": "C167", "title": "Values of every type survive the property tree", "statement": "A string, int, bool or double written with set (or as a default) is read back as the same value by the getter of its type, at every key and in every view; an int can also be read as a double of the same value, and a double as an int exactly when it is an integer in range.", "quantifier": "all strings, all 32 bit ints, all doubles including signed zeros, subnormals and non-finite values, all trees, keys and views, whatever the tie rule of the decimal conversions", "why_tests_cant": "quantifies over all doubles (2^64), keys and trees", "anchors": ["sm_property_tree/include/sm/BoostPropertyTreeImplementation.hpp get set", "sm_property_tree/src/BoostPropertyTreeImplementation.cpp getDouble getInt getBool getString"]}
{"id": "C168", "title": "Which texts a getter accepts, and as what value", "statement": "getInt, getBool and getDouble accept exactly the texts of an int in range, of a truth value, of a decimal number in the range of a double, each between white space, and give the value the text denotes (the nearest double); every other text is an InvalidValueException; a text never has two values.", "quantifier": "all texts of any length in any entry", "why_tests_cant": "quantifies over all texts", "anchors": ["sm_property_tree/include/sm/BoostPropertyTreeImplementation.hpp get", "sm_property_tree/src/BoostPropertyTreeImplementation.cpp getDouble getInt getBool"]}
{"id": "C169", "title": "Transformations in configuration files, in doubles", "statement": "transformationFromPropertyTree of seven entries holding decimal numbers gives a Transformation whose translation consists of the doubles nearest to the numbers and whose quaternion is a unit quaternion to 12/2^53 and within 40/2^53 of the direction of the four numbers; if an entry is missing or no number in the range of a double, the exception is that of the first such entry; a Transformation stored with setDouble under the same keys and read again, any number n of times, keeps its translation bit for bit, and its rotation stays normalised and moves by at most 48n/2^53.", "quantifier": "all decimal texts (quaternions of norm between 2^-150 and 2^150, translations up to 2^1023), all trees and namespaces, all rounding directions of ties, all orders of Eigen's sums, any number of cycles", "why_tests_cant": "accuracy and stability for all numbers and any number of cycles, on every machine that rounds to nearest", "anchors": ["sm_kinematics/include/sm/kinematics/property_tree.hpp transformationFromPropertyTree", "sm_eigen/include/sm/eigen/property_tree.hpp quaternionFromPropertyTree", "sm_property_tree/src/BoostPropertyTreeImplementation.cpp getDouble, setDouble"]}
{"id": "C170", "title": "Values survive configuration files", "statement": "A program that sets strings, ints, bools and finite doubles through whatever views, saves the tree and loads it again (in the same or another program) reads every value back exactly, under every spelling of its key: through INFO files any strings, through XML files strings that are not changed by white space handling, through JSON files UTF-8 strings if no value has children, through INI files one-line strings under keys of one or two names; keys that were not set, and do not lead to one that was, do not exist.", "quantifier": "all programs of any length, all values (ints of 32 bits, finite doubles), keys of identifiers, all views, all earlier contents of the tree that is loaded into", "why_tests_cant": "quantifies over all programs and all values, through printing, file format and parsing", "anchors": ["sm_property_tree/src/PropertyTree.cpp setDouble, setInt, setBool, setString, getDouble, getInt, getBool, getString", "sm_property_tree/src/BoostPropertyTree.cpp save, load"]}
{"id": "C171", "title": "Slope and offset of a timestamp corrector", "statement": "After any observations getSlope and getOffset describe the line that getLocalTime uses: for times in seconds since 1970 getOffset() + getSlope() * r is getLocalTime(r) to the nanosecond (REFUTED: the offset extrapolates to remote time 0 and loses digits, the two differ by 178 ns). In doubles and with int64 times: slope and offset are those of the line through two accepted observations up to stated rounding errors, the int64 slope is correctly rounded, the two answers differ by at most the sizes of the numbers involved times 2^-48, there is no undefined behaviour, and both calls throw exactly while fewer than two points are kept.", "quantifier": "all sequences of observations (finite doubles up to 2^64 at least 2^-64 apart; int64 times within 2^31 of each other), all remote times asked for, all roundings to nearest", "why_tests_cant": "quantifies over all histories of observations and all roundings", "anchors": ["sm_timing/include/sm/timing/implementation/TimestampCorrector.hpp getSlope, getOffset, getLocalTime"]}
{"id": "C172", "title": "Covariances of products in doubles", "statement": "The covariance that a product of uncertain transformations returns is symmetric and positive semidefinite whenever the covariances of the factors are (REFUTED: for a translation by (0,7,5) and a variance of 0.1 about one axis the computed matrix is not symmetric and has a negative quadratic form, whatever the order of the sums). What holds: for translations up to tau and covariances up to u, each entry of the covariance of a product is finite and within tau^2 u 2^-37 of U_a + B U_b B^T, so it is symmetric up to tau^2 u 2^-36 and its quadratic form is at least -6 tau^2 u 2^-37 |x|^2; the same with stated bounds for inverses, certain times uncertain transformations, images of certain and uncertain points, and rotated vectors; in whatever order the sums are formed.", "quantifier": "all stored poses and covariances in the stated ranges, all roundings to nearest, all orders of summation", "why_tests_cant": "quantifies over all doubles and all orders of summation", "anchors": ["sm_kinematics/src/UncertainTransformation.cpp operator*, inverse", "sm_kinematics/src/Transformation.cpp operator*, rotate", "sm_kinematics/src/transformations.cpp boxTimes, boxMinus"]}
{"id": "C173", "title": "Logarithm of quaternions in doubles", "statement": "The logarithm (quat2AxisAngle, qlog) of every unit quaternion, up to rounding, is finite (REFUTED: for the quaternion (0,0,0,-1), a full turn, all three components are NaN). What holds: for every quaternion with a norm within 128 units of the last place of 1 that is more than 2^-20 away from -1, the logarithm is finite (acos and asin are never called outside of [-1,1], although the norm may exceed 1), its exact exponential is the quaternion to within 2^-41 (2^-43 for rotations of more than 1/4000), it is at most a full turn long, and at most half a turn if the scalar part is not negative; qexp(qlog(q)) as computed is q to within 2^-40, and qlog(qexp(v)) as computed is v to within 2^-36 for every rotation vector of at most half a turn.", "quantifier": "all finite almost unit quaternions, all rotation vectors, all roundings to nearest, all orders of the sum, all libraries with the stated accuracy", "why_tests_cant": "quantifies over all doubles and all accurate libraries", "anchors": ["sm_kinematics/src/quaternion_algebra.cpp quat2AxisAngle, arcSinXOverX, axisAngle2quat", "sm_kinematics/include/sm/kinematics/quaternion_algebra.hpp qlog, qexp"]}
{"id": "C174", "title": "Interpolation of poses in doubles", "statement": "slerpTransformations and interpolateTransformations on machine numbers: at the second time the pose is the second one whenever the second time is after the first (REFUTED: for times 2^-50 apart the translation has made an eighth of the way or less), and an interpolated coordinate is never outside of those of the ends (REFUTED: between two poses at coordinate 3 the pose at 0.3 has 3 - 2^-51). What holds, for all poses as the constructors leave them: the rotation of the result is finite and normalized again, for every parameter and all finite times in every order; outside of (0,1), and up to the first and from the second time on (times at least 2^-46 apart), the result is the end's pose; in between the rotation is the first one followed by the fraction t of one rotation vector of at most half a turn that leads to the second rotation, up to 2^-42; the translation is on the straight line up to 4 units of the last place; the fraction is that of the time span up to 2^-50; the order of the two poses in the call does not matter.", "quantifier": "all pairs of poses with normalized rotations, all parameters, all times, all roundings to nearest, all orders of the sums, all libraries with the stated accuracy", "why_tests_cant": "quantifies over all doubles and all accurate libraries", "anchors": ["sm_kinematics/src/Transformation.cpp slerpTransformations, interpolateTransformations", "sm_kinematics/src/quaternion_algebra.cpp qslerp, lerp"]}
{"id": "C175", "title": "Euler angles in doubles", "statement": "The Euler angles of the rotation of every transformation are numbers (REFUTED: for a transformation that turns by 90 degrees about the y axis the computed entry (2,0) of C() is 1 + 2^-52, and the pitch is NaN). What holds, for the conventions yaw-pitch-roll, ZYX, ZXY and roll-pitch-heading: the matrix of every three finite angles is finite and exact up to 7/2^51 in each entry; a computed matrix that is within e of the exact one has finite angles that are the exact ones, up to full turns, to within 7e/d and a rounding, if d is the cosine of the middle angle and 4e <= d^2; so angles survive the way to the matrix and back to within 2^-45/d for d >= 2^-23, and the angles of a transformation built in n steps are those of the exact rotation with e = n/2^43; and for every finite matrix with the decisive entry between -1 and 1 the angles are finite and in their ranges.", "quantifier": "all finite angles, all finite matrices, all transformations built by the API, all roundings to nearest, all libraries with the stated accuracy", "why_tests_cant": "quantifies over all doubles and all accurate libraries", "anchors": ["sm_kinematics/src/EulerAnglesYawPitchRoll.cpp, EulerAnglesZYX.cpp, EulerAnglesZXY.cpp parametersToRotationMatrix, rotationMatrixToParameters", "sm_kinematics/src/rotations.cpp rph2R, R2rph"]}
{"id": "C176", "title": "Formatted numbers", "statement": "Numbers turned into text with the string routines keep what the caller asked for. fixedFloat(v, p) is the sign, digits without superfluous zeros and exactly p decimals, and no decimal with p places is nearer to v; larger numbers are never printed smaller; padded(double, w, p) is that text behind blanks up to width w, never cut. A printed double is read back exactly (REFUTED for few decimals; PROVED if 2^53 < |v| 10^p or v is zero, and for scientific with p >= 16). scientific(v, w, p) has p + 1 significant digits, none of that many nearer, and length max(w, p + 7) as the comment in the code promises (REFUTED for negative numbers with a three-digit exponent; PROVED otherwise). padded(number, width, precision) pads with blanks (REFUTED for integers: the precision becomes the fill character). paddedToString is prefix, padded elements with delimiters between, postfix, so that columns line up; paddedToStream leaves the format of the caller's stream alone (REFUTED: fixed notation, precision and fill stay behind; PROVED for the empty sequence). s_tuple lists the texts in brackets, and tuples of integers with the same text are equal; ts tells doubles apart (REFUTED: six digits; PROVED: the nearest decimal of six digits).", "quantifier": "all finite doubles, infinities and NaN, all widths, precisions, fill characters, sequences, delimiters and stream states", "why_tests_cant": "quantifies over all doubles, precisions and sequences", "anchors": ["sm_common/include/sm/string_routines.hpp ts, padded, scientific, fixedFloat, s_tuple, paddedToStream, paddedToString"]}
{"id": "C177", "title": "Rotation vectors in doubles", "statement": "The matrix that RotationVector computes in doubles of any finite rotation vector of length at most 8 is finite and its entries are those of the matrix exponential up to 2^-45; the same for axisAngle2R (up to 2^-38 below 2e-12). Conversely the rotation vector computed of a finite matrix near the rotation by an angle a about n is finite and near a n, the error growing like the inverse of the sine of the angle; so a rotation vector comes back from its matrix to within 2^-39 / sin(length), and a transformation built in many steps has the rotation vector of the exact rotation. Of every finite matrix with moderate entries, a rotation or not, the vector is finite. A rotation vector shorter than a half turn comes back up to 2^-31 (REFUTED: one of length 2^-30 comes back as zero).", "quantifier": "all finite rotation vectors up to length 8, all finite matrices, all nearest roundings, all orders of summation and all accurate C libraries", "why_tests_cant": "quantifies over all doubles, roundings and C libraries; the bound is on the real error", "anchors": ["sm_kinematics/src/RotationVector.cpp parametersToRotationMatrix, rotationMatrixToParameters", "sm_kinematics/src/rotations.cpp axisAngle2R"]}
{"id": "C178", "title": "Euler-Rodriguez parameters in doubles", "statement": "The matrix that EulerRodriguez computes in doubles of any parameters up to 2^100, that is tan(a/2) n, is finite and within 2^-47, entry by entry, of the rotation by a about n; the S matrix is right to 9 units of 2^-53. The parameters computed of a finite matrix near a rotation that is neither near the identity nor near a half turn are finite and near tan(a/2) n, the error growing like the inverse cube of the sine; so parameters come back from their matrix, and a transformation built in many steps has the parameters of the exact rotation. REFUTED: the parameters of every computed rotation are numbers - the trace may pass 3 or -1 by a rounding, and the arc cosine is then not a number, since the argument is not clamped, even for the matrix that the class has just computed; and that every finite vector has a finite matrix.", "quantifier": "all finite parameter vectors up to 2^100, all finite matrices near a rotation, all nearest roundings, all orders of summation and all accurate C libraries", "why_tests_cant": "quantifies over all doubles, roundings and C libraries; the bound is on the real error", "anchors": ["sm_kinematics/src/EulerRodriguez.cpp parametersToRotationMatrix, rotationMatrixToParameters, parametersToSMatrix", "sm_kinematics/src/rotations.cpp crossMx"]}
{"id": "C179", "title": "Homogeneous points in doubles", "statement": "A Euclidean vector made homogeneous and converted back is the same vector, bit for bit, one at a time or as columns; a point at infinity has no finite coordinate. A point computed from Euclidean and homogeneous points by any number n of sums, differences and scalings, all weights and values moderate, is converted to a vector within (3 n + 2)/2^52 of the exact one, relative to the reach of the computation; and if only Euclidean points enter, the result is bit for bit that of plain vector arithmetic. The plus and minus matrices give the sum and the difference, bit for bit, in whatever order the products are summed (the difference under a sign-symmetric rounding). The Jacobian of the conversion is right to 4/2^52, normalising a point gives unit length to 12/2^53 and moves its coordinates by at most 38/2^52, and convertToPoint of a direction is the unit vector. REFUTED: a sum of moderate points is always finite - the weights multiply, so ten additions of a point of weight 2^100 overflow; and every point in the unit cube can be converted - the reciprocal of a tiny weight overflows.", "quantifier": "all finite 4-vectors in the stated ranges, all computations of any length up to 2^40 roundings, all nearest roundings and all orders of summation", "why_tests_cant": "quantifies over all doubles, roundings and sequences of operations; the bound is on the real error", "anchors": ["sm_kinematics/src/homogeneous_coordinates.cpp toHomogeneous, fromHomogeneous, toHomogeneousColumns, fromHomogeneousColumns, toHomogeneousPlus, toHomogeneousMinus", "sm_kinematics/src/HomogeneousPoint.cpp HomogeneousPoint"]}
{"id": "C180", "title": "Numerical Jacobians in doubles", "statement": "With a step factor eps between 2^-40 and 2^-10 (the default is 2^-26), a column of the estimated Jacobian depends only on the function's values at two points that keep every other coordinate bit for bit and whose coordinate lies strictly below and above the given one, eps max(|x|,1) away up to 1.01/2^53 of the scale. If the function is an approximation within eta of a three times differentiable one, the entry is finite and differs from the derivative by at most 1.01 times: the relative error 1/(eps 2^53) of the displacements, in the first derivative and, times the step, in the second; a sixth of the third derivative times the squared step; and eta over the step. For functions affine in a coordinate that is a multiple of 2^-52 between -1 and 1 it is exact if the function's values are; with a step factor of zero every entry is NaN. REFUTED: the Jacobian of the identity is the identity - at 1 + 2^-52 the displaced points are rounded but the divisor is not; and every positive step factor moves the point - with 2^-60 the derivative of the identity at 1 is zero.", "quantifier": "all moderate points of any dimension, all functions, all step factors in the range, all nearest roundings, division or multiplication by the reciprocal", "why_tests_cant": "quantifies over all functions, points and roundings; the bound is on the real error", "anchors": ["sm_eigen/include/sm/eigen/NumericalDiff.hpp NumericalDiff::estimateJacobian, NumericalDiffFunctor::update, numericalDiff"]}
{"id": "C181", "title": "Angle utilities in doubles", "statement": "angleMod of every finite angle up to 2^1000 is a finite double of magnitude at most pi plus 5/2^53 of the angle, and differs from the angle by a whole number of turns up to 5/2^53 of the angle. An angle strictly between the doubles nearest to -pi and pi comes back bit for bit; those two are exchanged; infinities and NaN throw. deg2rad has a relative error of at most 1.8e-14 (the constant has too few digits) and rad2deg of 3.2e-16, up to half the smallest double; there and back the relative error is at most 2e-14. REFUTED: reducing twice is reducing once (the double nearest to pi changes sign each time); the reduced angle is always between -pi and pi (2^54 gives -4); half a turn in degrees is the double nearest to pi.", "quantifier": "all finite doubles up to 2^1000, infinities and NaN, all nearest roundings", "why_tests_cant": "quantifies over all doubles and roundings; pi is not a double", "anchors": ["sm_kinematics/src/rotations.cpp angleMod, deg2rad, rad2deg", "sm_kinematics/include/sm/kinematics/rotations.hpp SM_2PI, SM_DEG2RAD, SM_RAD2DEG"]}
{"id": "C182", "title": "Angular velocities of Euler angles in doubles", "statement": "For each of the three Euler-angle parametrisations and every three finite angles, the S-matrix that the library returns is, entry by entry up to 6/2^53, a matrix that maps the rates of the angles to the angular velocity of the frame along every curve of angles, and its first column is exact. For every three rates of magnitude up to W, between 2^-900 and 2^800, the returned angular velocity is finite and within 25/2^53 of W of the true one, and so is the derivative by the angles in the returned Jacobian; the derivative by the rates is within 6/2^53. The determinant of the returned S-matrix is plus or minus the cosine of the middle angle up to 25/2^53, so it can be inverted whenever the angles are that far from gimbal lock.", "quantifier": "all finite angles, all rates up to W, all nearest roundings, all C libraries whose sine and cosine are within 2^-52, all orders of summation of Eigen", "why_tests_cant": "quantifies over all angles, rates and roundings; true angular velocities are reals", "anchors": ["sm_kinematics/src/EulerAnglesYawPitchRoll.cpp parametersToSMatrix, angularVelocityAndJacobian", "sm_kinematics/src/EulerAnglesZYX.cpp parametersToSMatrix, angularVelocityAndJacobian", "sm_kinematics/src/EulerAnglesZXY.cpp parametersToSMatrix, angularVelocityAndJacobian"]}
{"id": "C183", "title": "Angular velocities of Euler-Rodriguez parameters in doubles", "statement": "For every finite vector of Euler-Rodriguez parameters of length up to 2^100 and every three rates of magnitude up to W, between 2^-600 and 2^500, the angular velocity that the library returns is finite and within 91/2^53 of W of the angular velocity of the frame; in the returned Jacobian the derivative by the parameters is within 190/2^53 of W of the derivative of that velocity, and the derivative by the rates is within 25/2^53. The latter matrix and the S-matrix that the class returns on its own agree up to 44/2^53.", "quantifier": "all finite parameters up to 2^100, all rates up to W, all nearest roundings, all orders in which Eigen may add three products", "why_tests_cant": "a test compares a few random vectors with a loose tolerance; that no vector, near zero or huge, gives a velocity that is wrong by more than some rounding errors needs an error analysis that covers all doubles", "anchors": ["sm_kinematics/src/EulerRodriguez.cpp EulerRodriguez::angularVelocityAndJacobian", "sm_kinematics/src/EulerRodriguez.cpp EulerRodriguez::parametersToSMatrix"]}
{"id": "C184", "title": "The S-matrix and the angular velocity of rotation vectors in doubles", "statement": "For every finite rotation vector that is not zero and not longer than 8, the S-matrix that the library returns is, up to 2^-43 in each entry, a matrix that maps the rates of the parameters to the angular velocity of the frame along every curve of rotation vectors, where the frame of a rotation vector is its matrix exponential; this includes the vectors shorter than 1e-14, for which the library returns the identity, and those around that threshold. For every three rates of magnitude up to W, between 2^-100 and 2^100, the returned angular velocity is finite and within 2^-42 of W of the true one.", "quantifier": "all finite nonzero rotation vectors up to length 8, all rates up to W, all nearest roundings, all orders of Eigen's sums, all C libraries whose sine is within one unit in the last place", "why_tests_cant": "the formula divides differences that cancel by the length of the vector; a test tries a few lengths, while the claim is that no length down to zero loses accuracy", "anchors": ["sm_kinematics/src/RotationVector.cpp RotationVector::parametersToSMatrix", "sm_kinematics/src/RotationVector.cpp RotationVector::angularVelocityAndJacobian"]}
{"id": "C185", "title": "The inverse S-matrix of rotation vectors in doubles", "statement": "For every finite rotation vector shorter than 6, the inverse S-matrix that the library returns is finite and, up to rounding, the inverse of the matrix that maps the rates of the parameters to the angular velocity of the frame. (Disproved for short vectors: with a correctly rounded cosine, for every vector whose length is between 2^-47 and 2^-28 the returned matrix has no finite entry at all, although the true one is almost the identity. For the zero vector it is exactly the identity; for lengths between 1/2 and 4 every entry is within 2^-36 of that of the true two-sided inverse, between 2^-20 and 1/2 within 2^-44 divided by the square of the length, and between 4 and 6 within 2^-32.)", "quantifier": "all finite rotation vectors, all nearest roundings, all orders of Eigen's sums, all C libraries with sine and cosine within 2^-52", "why_tests_cant": "the formula divides by a difference that is rounded to zero for short vectors; a test of a few lengths misses the range, and no set of lengths shows that a whole range is accurate", "anchors": ["sm_kinematics/src/RotationVector.cpp RotationVector::parametersToInverseSMatrix"]}
{"id": "C186", "title": "Transformation matrices in doubles", "statement": "For every matrix of doubles whose rotation block is within 2^-50 of that of a rigid transformation and whose translation is as accurate in proportion to its size: the inverse transformation is the exactly transposed rotation with a translation within 2^-48 of its bound of that of the true two-sided inverse; the image and the preimage of every finite point are finite and within 2^-47 and 2^-44 of the product of the bounds of the true ones; and the Jacobians returned with them are as close to the derivatives of image and preimage along every curve of transformations that sets out with a perturbation.", "quantifier": "all such matrices with translations up to 2^100, all finite points up to 2^100, all nearest roundings, all orders of Eigen's sums", "why_tests_cant": "a test checks a few matrices with one processor's order of sums; the bounds hold for every matrix, every point and every order", "anchors": ["sm_kinematics/src/transformations.cpp inverseTransform, transformationAndJacobian, inverseTransformationAndJacobian, rt2Transform, transform2C, transform2rho, boxMinus"]}
{"id": "C187", "title": "Derivative of the exponential map in doubles", "statement": "For every finite rotation vector that is not zero and not longer than 8, the derivative matrix of the exponential map that the library computes is finite and, up to 2^-43 in each entry, the true one, which takes the velocity of every curve of rotation vectors to the angular velocity of the frame; for the zero vector it is exactly the identity; and the 4x3 Jacobian of the quaternion exponential is finite and within 2^-38 of the true derivative of the unit quaternion with respect to the rotation vector.", "quantifier": "all finite rotation vectors up to length 8, across both branches of the switch at small angles, all nearest roundings, all orders of Eigen's sums, all accurate math libraries", "why_tests_cant": "a test checks a few vectors, and finite differences are far coarser than the bound; in particular they do not reach the neighbourhood of the switch, where the closed formula cancels", "anchors": ["sm_kinematics/src/quaternion_algebra.cpp expDiffMat, quatExpJacobian, quatV, quatOPlus, axisAngle2quat"]}
{"id": "C188", "title": "Derivative of the logarithm in doubles", "statement": "For every finite rotation vector that is not zero and not longer than 4 (so for every vector the logarithm of a quaternion returns), the derivative matrix of the logarithm that the library computes is finite and, up to 2^-43 in each entry, the true one: the two-sided inverse of the matrix that takes the velocity of a curve of rotation vectors to the angular velocity of the frame; the computed derivative matrices of exponential and logarithm are inverse to each other up to 2^-36 in each entry, whichever way round they are multiplied; for the zero vector it is exactly the identity.", "quantifier": "all finite rotation vectors up to length 4, across both branches of the switch at small angles and across the pole of the tangent at half a turn, all nearest roundings, all orders of Eigen's sums, all accurate math libraries", "why_tests_cant": "a test checks a few vectors; it cannot settle that no double hits the pole of the tangent, nor how much is lost by cancellation just above the switch", "anchors": ["sm_kinematics/src/quaternion_algebra.cpp logDiffMat"]}
{"id": "C189", "title": "Linear interpolation in doubles", "statement": "lerp refuses vectors of different sizes and no others; for a parameter at or beyond an end, even an infinite one, it returns exactly the vector of that end, whatever the other vector holds; a parameter that is not a number gives entries that are not numbers; between the ends every entry is finite and within 2^-50 of the common bound of the entries of the point on the line.  That a point between the ends lies between the end points is REFUTED: a fifth of the way from 3 to 3 is more than 3.", "quantifier": "all vectors of all sizes, all parameters, all nearest roundings; for the accuracy all finite vectors with entries up to 2^100", "why_tests_cant": "a test checks a few vectors and parameters; the overshoot shows for some parameters only", "anchors": ["sm_kinematics/src/quaternion_algebra.cpp lerp"]}
{"id": "C190", "title": "Jacobian of the quaternion logarithm in doubles", "statement": "quatLogJacobian returns a finite matrix for every unit quaternion (REFUTED: for the identity, in both signs, no entry is finite); for every finite quaternion with a vector part of length n between 2^-30 and 8 and a scalar part strictly between -1 and 1 the first three columns are finite and, up to 2^-43/n in each entry, those of the true derivative of the logarithm.", "quantifier": "all such quaternions, all nearest roundings, all orders of Eigen's sums, all accurate math libraries", "why_tests_cant": "a test with random quaternions never meets the identity, and finite differences are far coarser than the bound", "anchors": ["sm_kinematics/src/quaternion_algebra.cpp quatLogJacobian"]}
