# Formal model of scroll-tech/poseidon-circuit in Lean 4

Nothing here runs the Rust code. The theorems are about a hand-written Lean model of it. Every
model definition cites the file and lines of `/repo` it models and says where it simplifies.

## Layout

| module (under `lean/Verif/`) | contents |
|---|---|
| `Spec.lean` | the small independent specification: textbook Poseidon, reference sponge, reference LFSR |
| `Base/*` | model of `poseidon-base`: permutation, compact constants, sponge, domains, hash API, caches, Grain, MDS, BN254 and Pallas constants, `fields.rs`, the square root; `*Lemmas`, `*Prime`, `*Eval`, `Pratt`, `Cauchy` are proofs, `*Consts` the constant tables |
| `Halo2/*` | model of the part of halo2 the crate uses: expressions, gates, lookups, copy constraints, regions, the simple floor planner; `Assembly` and `Argument` the keys and the argument behind a proof |
| `Circuit/*` | model of `poseidon-circuit`: Septidon chip (`Septidon`, and `Degree5` for the other value of `GATE_DEGREE_5`), Pow5 chip (`Pow5`), sponge and hash gadget (`Gadget`), hash table builder (`Builder`), sponge table circuit (`Table`); the other files are proofs |
| `Props/*` | one theorem per property, stated against `Spec` and the public API of the model, with a non-vacuity example beside each |

## Modelling conventions

* A field `F` of the Rust code is any Lean `Field` (theorems that need the BN254 scalar field use
  `ZMod r`, with `r` proved prime in Lean by a Pratt certificate).
* `[F; T]` is `Fin T → F`, `Vec<T>`/slices are `List`, `u64`/`usize`/`u128` are `Nat`, with
  the bound stated where a property is about overflow.
* A panic (failed `assert`, `expect`, index out of range) is `Except.error`.
* `&mut self` methods return the new value.
* Circuit configuration is run for real in the model: `configure` transforms a constraint system
  (column counters, gates as expression trees, lookups, equality-enabled columns).
* Synthesis is run for real: `permute`, `load`, ... produce a list of cell writes and copy constraints,
  placed by a model of halo2's simple floor planner; for serial loading of the hash table also by any other floor
  planner, given by the first rows of the regions (`loadPlanned`). Acceptance of an assignment means: every gate
  polynomial evaluates to zero on every row of the domain (with wrap-around of rotations), every
  lookup input occurs in its table on every usable row, every copy constraint holds.
* Soundness theorems quantify over all advice assignments with the fixed columns, selectors and copy
  constraints that synthesis produced. Completeness theorems say the written advice is accepted, with arbitrary
  values in the blinding rows.

## Plan per property

* C01 induction over the round list against `Spec.poseidon`.
* C02 each step of the constant-propagation loop preserves the permutation; induction over the loop.
* C03 every round is invertible: MDS determinant (kernel computation), x^5 (Fermat with gcd(5, r-1) = 1).
* C04, C05, C06, C08, C09 refinement of the stateful sponge to `Spec` by induction on the message.
* C07, C42 arithmetic on `Nat` and casts into `ZMod r`.
* C10, C11, C12 the same refinement for generic width and rate.
* C13 a state machine of cache cells with atomic get-or-init; induction over the history. The runtime (OnceCell's
  blocking, memory model) is abstracted to: one initialiser wins atomically.
* C14 simulation of the byte-wise LFSR by the bit sequence. C15 Bezout certificate for the
  two decimated recurrences over GF(2). C16 decoding function. C17 loop characterisation
  (the rejection loop is fuelled; the theorem says what is returned if it stops, C70 that it always stops).
* C18 Lagrange interpolation proof of the Cauchy inverse. C19 sort/dedup lemma. C20 cofactor identity.
* C21-C25 evaluation of the gates on a region; induction over rounds for Pow5.
* C26-C32, C47 induction over rows of the hash table.
* C33-C41 list inductions on the builder, chunker and loader models.
* C43, C44 inspection of emitted copy constraints and region shapes.
* C45, C46 composition of the above.
* C48 bit-width bounds on `Nat` for each helper, schoolbook multiplication by `ring`.
* C49, C50 Grain run in the kernel on raw `Nat` (every table entry of both curves), generic part by the loop
  characterisation of C17 and C18.
* C51 order argument in the unit group, two nested loop invariants.
* C52 the C45 invariant with a step for each squeezed word.
* C53 degrees read off the emitted gate list, for an arbitrary host constraint system.
* C54 induction from the end of two absorptions; the encoding part is positional notation.
* C55 the gate list with the selector as a parameter.
* C56 counts S-boxes with differing inputs along two executions (`Props/Trails.lean`); C57 compares two
  accepted runs of the hash table row by row (`Props/TableUnique.lean`); C58 combines C26, C28 and C60 into an
  equivalence (`Props/Provable.lean`); C59 applies the C54 reduction to blocks (`Props/TableCollision.lean`).
* C60: soundness from C26, C28, C30 by induction over blocks; completeness by overwriting the table columns of an
  honest grid with any solution of the row equations (`Circuit/TableExact.lean`, `Props/TableExact.lean`). C61
  follows from C58 and the bijectivity of the permutation (`Props/TableSteer.lean`).
* C62: the parser against Lean's `toString`, by induction on the digits (`Props/Decimal.lean`).
* C63: observability and controllability of the matrix at word 0 (`Props/Subspace.lean`).
* C64: the lowest row of every operation of the log; C65: what the chips need of the rows is only that the regions do
  not overlap (`Chip.Lawful`), so `Run.Accepted` and with it C26-C32, C57, C59 and C60 hold for every floor planner
  (`Props/TablePlan.lean`).
* C66: the rows of valid tables (C60); blocks around a given row by running the sponge backwards
  (`Props/TableLookup.lean`).
* C67: `load` writes to its own columns only, `configure_sub` allocates new ones; the log around each table then is
  quiet on its columns (`Props/TableMany.lean`).
* C68: leading coefficients round by round over a line of states; for the two instances the top coefficient is
  computed and is not zero (`Props/AlgDegree.lean`).
* C69: no gate is poisoned on any row (`Circuit/MockChip.lean`, `Circuit/MockTable.lean`); the lookup is on row 0 at
  most, if a block mark is there (`Props/Mock.lean`).
* C70: polynomials modulo the feedback polynomial act on register sequences (`Base/GrainPoly.lean`). Two finite facts are
  evaluated by the kernel: `x^(2^80-1) = 1`, and `x^((2^80-1)/q) + 1` has an inverse for each of the nine primes `q`
  dividing `2^80 - 1`. So a nonzero sequence has least period `2^80 - 1` and every nonzero window occurs once per
  period (`Base/GrainPeriod.lean`). Termination of `next_field_element`: a group starting with 0 is below `2^(n-1) <= p`.
  A stored piece of 8192 register bits has a kept 0 at every place modulo 256; it occurs in every sequence, and by going
  round the cycle (`2^79` kept bits each time) its places can be moved to a multiple of any `n <= 256`.
* C71: the table columns outside the table, and the column ends `load` leaves in the layouter. The chip interface
  (`Lawful`) says that a chip moves the ends of its own columns only; `Circuit/TableReserve.lean` follows the ends through
  `load` in both modes; accepted grids are compared row by row (`Run.satisfies_outside`).
* C72: synthesis with values that may be unknown, as key generation runs it. `Circuit/Values` has the assignment code over
  `Value F := Option F`; `Circuit/ValuesSim` relates it to the code over field elements operation by operation (equal
  except for advice values, which are equal or unknown). Two runs that differ in values are compared through a run with
  all values unknown.
* C73: schedules of the threads of `assign_regions`. `Halo2/Threads` has interleavings, schedulers and
  `Layouter.assignRegionsBy`; `Run.loadBy σ τ` is `load` under two schedules. `Circuit/Threads` shows that every closure
  writes within the rows it has shown to the floor planner; from that, the log under any schedule has the same
  writes per cell as the sequential log (`Props/Threads`).
* C74: differential characteristics. The count of followers is split into rounds by a bijection: given the state before a
  round, its constants and the state after their addition determine each other. The bound of a round comes from
  the number of roots of `(x + a)^5 - x^5 - b`; C56, applied to one follower, bounds the number of active S-boxes.
* C75: the circuits of the tests of `pow5.rs` as a whole. `Circuit/HashCircuit` models `PermuteCircuit` and
  `HashCircuit`; `Circuit/HashCircuitRows` follows the first free rows of each column through the gadget (`Ends`), the
  columns of copy constraints (`Linked`) and the cell check; C45 supplies soundness and completeness of the gadget.
* C76: `Halo2/Blinding` models the number of rows that halo2 reserves, from the rotations at which columns are
  queried; `Circuit/Blinding` lists the queries of the gates of both chips (`Septidon.Queried`, `Pow5.gates_near`).
  With C64 (rows of `load`), C69 (mock prover) and C41 (checks) this gives the exact verdict of the table tests.
* C77: C60 has two steps as parameters; the theorem of C58 is proved for two steps here and specialised there. The honest witness
  for unequal steps comes from C31 and C32, the builder's rows from C33 (`Props/Steps.lean`).
* C78: `Circuit/Reload` adds halo2's list of filled table columns, read off the `fill` operations of the log, and the synthesis of
  a circuit as a list of loads and other steps (`Props/Reload.lean`).
* C79: `Circuit/HashCircuitValues` is `HashCircuit` with optional message and output over the values of C72; the simulation of
  `Circuit/ValuesSim` relates it to the circuit of C75 for every message (`Props/Keygen.lean`).
* C80: the digest as a family indexed by the constants of the last full round. The state before that round does not depend on
  them, so along one axis of the row only one S-box varies; counting along that axis gives the exact and the bounded numbers.
  Messages of more than one block are not covered: the row also changes the states between the blocks.
* C81: `Circuit/SeptidonTest` is `TestCircuit` of septidon/tests.rs; its log is that of `permute` without the copies, so the
  theorems on placed blocks (C21, C22, C69) apply (`Props/SeptidonTest.lean`).
* C82: the polynomials of C68 along a line have degree far below `q - 1`, so sums of their products over the field vanish; the
  bound on preimages of C68 gives a bound on the number of digests (`Props/ZeroSum.lean`).
* C83: the model functions `hashMsg` and `hashWithDomain` take the permutation as an argument, so it can be a random one. An
  adaptive adversary is a function of the transcript. `Props/IdealLemmas` counts the permutations for which an answer has a capacity word
  seen before (a further value is uniform on what is left, by composing with transpositions); without such an answer
  every evaluation was asked forward and C54's reduction leaves no collision (`Props/Ideal.lean`).
* C84: `Circuit/ChipCells` turns the "gates imply the trace" and "trace implies the gates" lemmas of both chips into an
  equivalence cell by cell; `Circuit/ChipExact` adds which cells are bound and free to the interface of a chip;
  `Circuit/TableCells` redoes the table with it. The first row equations (row `s`) only leave `digest = state` and the last
  row's digest free because a continuation flag there is 0 (`Props/Cells.lean`).
* C85: characters of the field and Plancherel's identity (`Props/LinearLemmas`). Averaged over the key of a layer of S-boxes, a
  squared correlation is a sum over masks before the layer; over two layers the branch number of the (transposed) matrix
  leaves `T` bounded factors and an injective sum over the rest. For `x^5` the fourth moment over the orbit `(ut, vt^5)`
  is counted with C74's four solutions. An average over constants, not a bound for the constants of the crate
  (`Props/Linear.lean`).
* C86-C91: `Halo2/Assembly` models how key generation joins cycles of cells (the invariant: the cycles of the mapping are
  the classes of the copy constraints so far), `Halo2/Argument` the terms of the three arguments of halo2, the messages
  of a prover as functions of the challenges and the equation of the verifier. Soundness (`Props/ArgumentRows`, `Sound`):
  for fixed messages the equation is a polynomial identity in `x` of bounded degree, then in `y`, so all terms vanish on all
  rows; telescoping the grand products gives an identity of products in `beta` and `gamma`, and counting roots
  (`Props/ArgumentCount`) shows that it fails for most challenges unless multisets agree; for the lookup an induction over rows.
  A lookup of several columns that fails on a row fails after compression, but for few `theta`.
  Completeness (`Props/ArgumentComplete`) builds the permuted columns (a counting argument), products and quotient pieces.
  `Props/ArgumentTable` instantiates both with the hash table over the domain of BN254 (`2^28`-th root of unity, the
  generator 7, names `delta^j omega^i` distinct by a large prime factor of `r - 1`); `Props/ArgumentSame` shows that keys
  depend on the witness-independent part of the log only.

* C92, C93 (`Props/ArgumentHost`): a lookup of another circuit into the columns of the table is a `Wide` lookup; C86 gives that it
  holds for what was committed, C66 what an answered row means. C93 closes the loop for one concrete circuit: key from an empty
  table (C91), honest table for the requests (C31), unused rows answered by the all-zero custom row, prover from C89.

* C94, C95 (`Props/TableMessage`, `Props/ArgumentMessage`): C66 shows that rows of a message looked up one by one need not come from one
  message. With one more gate they do, up to a collision written out in the table: with no domain on rows with a control, every
  row of a block carries the digest of the whole block, and the control tells which block it may be. If all rows of a message are
  answered, either one block answers them all or two blocks with the same digest differ. C95 closes the loop as C93 does.

* C96 (`Props/ArgumentHiding`): the polynomials `create_proof` sends, with random values in the rows that cannot be assigned, and what
  the verifier reads of them. A polynomial that is zero on the assigned rows can take any values at as many points as there are
  random rows, so a shift of the random values turns the polynomials of one assignment into those of another, as far as the
  verifier sees; later polynomials depend on the random values of earlier ones only through their assigned rows, so the counts
  multiply. The number of rows that `blinding_factors` keeps is what is needed.

* C97 (`Props/ArgumentOracle`): the challenges as answers of a random oracle. A prover is a function from all answers so far to its
  next script; the oracle answers the four beginnings of a script (advice, permuted columns, products, quotient), with an old answer
  where the beginning is not new. If some script with a broken assignment is accepted, one of its answers was lucky when it was drawn;
  each is lucky with the chance of its round in C86, whatever the prover knew, so the chances add up over all questions. The honest
  prover asks four times; the answers it meets are as random as those of a verifier.

* C98 (`Circuit/Environment`, `Props/Environment`): `load` with what it reads from outside (feature, environment variable, the number of
  processors at its two places). The batch of the Septidon chip leaves the same layouter for any number of threads, so `load` in an
  environment is `load` in a mode; with C91 keys agree, with C97 proofs made elsewhere are sound and complete.

* C99 (`Props/ArgumentGadget`): the argument of C86, C89 and C97 for circuits with the hash gadget. `Key.Proves` and `Key.Shows` are
  soundness (interactive and with a random oracle) and completeness for a statement about the grid; C45, C52, C75 and C81 supply the
  statement. Over Pallas the domain is given by a root of unity of order `2^32` and by `delta = 5^(2^32)`; that these generate disjoint
  cosets is proved. With C79 the key made without a witness serves all messages.

* C100 (`Props/ArgumentLookup`): C92 to C95 in the terms of `Key.Proves` and `Key.Shows` (`Props/ArgumentProves`), that is also for a prover
  that asks a random oracle.

* C101 (`Props/Opening` over the model `Halo2/Opening`): the opening of many polynomials at many points with KZG commitments (SHPLONK), by
  counting challenges. The prover's group elements are sums of the powers in the parameters (its polynomials are known), so a bad
  opening that is accepted gives a polynomial with the secret as a root.
* C102 (`Props/ArgumentKzg` over the model `Halo2/ArgumentKzg`, `Props/ArgumentKzgTable`): the verifier of the tests with commitments and
  claimed values accepts only if the one with ideal commitments does, up to C101; for the crate's circuits by bounding the rotations
  of all queries.

* C103 (`Props/Transcript`, `Props/ArgumentKzgOracle`, `Props/ArgumentKzgOracleTable` over the model `Halo2/Transcript`): a general game with
  an oracle that answers several kinds of questions per move, each kind with fresh randomness if the question is new. If a bad event
  needs one kind of answer to be lucky, and earlier answers fix what luck is, a union bound over moves gives the bound; questions are
  commitments, so that equal questions from different polynomials are collisions, which give the secret as a root.

* C104 (`Props/IdealDigestLemmas`, `Props/IdealGame`, `Props/IdealDigest`): the transcripts of the real and the random game are compared one by
  one. For a good transcript (C83) the evaluations that are missing form a forest; every choice of fresh capacity words inside and of the
  given digests at the leaves is met by the expected number of permutations, and different choices by different permutations. This gives
  the real game at least (1 - error) times the frequency in the random game; the complement of the event gives the other direction.

* C105 (`Props/ArgumentKzgHiding`): a commitment is the value at the secret, so one more point is read of every column; the blinding factors
  leave one row more than there are points (`C105_needed`: with one less they would not). Adding the random values of a polynomial that
  makes up for the difference of two assignments at all points is a bijection. The polynomials of the opening are quotients that are exact
  if the values are right, hence their values at the secret follow from the others.

* C106 (`Props/IdealSimulateLemmas`, `Props/IdealSimulateGame`, `Props/IdealSimulate`): indifferentiability. Unlike in C104 the
  distinguisher may evaluate the calls. After its last step it is made to evaluate them all (`finish`); then the transcript is a table of
  questions, which with a random permutation is at least as likely as with random answers, if it is good (`Inv`: part of a permutation, no
  two beginnings of calls with one capacity, the right digests). A step spoils a good table for few random states only (`BadCoin`). The
  simulator is `simulate`; the running time of simulator and distinguisher is not modelled.

* C107 (`Props/IdealCapacity`): the same for `hash_msg` with a capacity from the caller, if it determines the number of words, as the
  controls of the hash table do; and collisions, counted in the game with the random function (`fresh_le`).

* C108 (`Props/TablePath`): what control-0 lookups, of any number, in one table mean (induction on valid tables, C60), and from it the
  binding of paths of a tree, in one table, in one proof and between two proofs of the circuit of C93.

* C109 (`Props/TableTrie`): tries as an inductive type, their nodes as a relation; binding by induction on the trie, membership and
  absence by induction on the path from the root.

* C110 (`Props/IdealTrie`): the clashes of C109 are collisions or digests 0 among the calls of the game of C106; both are counted with
  the random function.

* C111 (`Props/TableUpdate`): two paths with the same frame, by induction on the path from the root with the trie before and after
  (`trie_update`); chains by induction on the list, the nodes of the trie in between are among those seen.

* C112 (`Props/CodeHash`): the rows of a byte string (`byteRows`) and its length determine it (`byteRows_inj`), and the sponge sees only
  the rows (`bytesHash_eq`); then C58, C54, C94 and C107 for these messages.

* C113 (`Props/ConstantCollision`): the sponge on blocks of the whole width (`absorb_blocks`), and equal capacity words followed back to the
  start by induction on the blocks from the end (`inner`, `inner_at`); the circuit by C45.

* C114 (`Props/IdealConstant`): the lemmas of C83 with two labels, the capacity word and the digest word (`Good.distinct₂`): evaluations are
  asked forward because of the first, and then have different digests because of the second; with the reduction of C113.

* C115 (`Props/ArgumentBytes`): C100 and C103 for the rows of byte strings (C112); that the rows determine the strings by induction on the list,
  each string starts with its length as control.

* C116 (`Props/GadgetPath`): C45 and C99 for calls of the gadget that form a Merkle path, by induction on the path; binding by induction
  on the path and C113; membership because a tree has a path from every position (induction on the
  depth). The sides are fixed for the circuit: a swap by a witness bit would be a gate of the user.

## Coverage of the source

Every function outside tests and benches, and where it is modelled. Line numbers are beside each Lean definition.

| source | modelled in | not modelled |
|---|---|---|
| `poseidon-base/src/primitives.rs` `Spec`, `Spec::constants`, `CachedSpec`, `permute`, `poseidon_sponge`, `Sponge::{new, update_capacity, absorb, finish_absorbing, squeeze}`, `Absorbing::init_with`, the three `Domain`s, `Hash::{init, permute, hash, hash_with_cap}` | `Base/Permute`, `Base/Sponge`, `Base/Constants` | `Domain::name`, `Debug for Hash` |
| `primitives/p128pow5t3.rs`, `p128pow5t3_compact.rs` | `Base/Permute` | `secure_mds` (`unimplemented!()`; only the default `constants` calls it, and both specs override that) |
| `primitives/grain.rs` | `Base/Grain`, `Base/GrainField` | |
| `primitives/mds.rs` | `Base/Mds` | |
| `primitives/bn256/*` | `Base/Bn256`, `Base/Bn256Consts`, `Base/Bn256Strings`, `Base/Decimal` | `from_str_vartime` is a function of the crate `ff`, modelled from its documentation |
| `primitives/pasta/*` | `Base/Pasta`, `Base/PastaConsts`, `Base/Sqrt` | |
| `primitives/fields.rs` | `Base/Fields` | the file is not compiled by the crate (its `mod` line is commented out) |
| `primitives/binops.rs` | | operator forwarding macros; not compiled either |
| `params.rs` | `Base/Permute`, `Base/Bn256` | |
| `hash.rs` | `Base/Bn256`, `Base/Cache` | |
| `poseidon-circuit/src/hash.rs` | `Circuit/Builder`, `Circuit/Table`, `Circuit/Degree5` (column accessors), `Circuit/Environment` | logging, `Debug`, the `Chip` accessors `config`/`loaded` |
| `src/poseidon.rs` | `Circuit/Chip`, `Circuit/Gadget` | `Word::{inner, from_inner}` (wrappers) |
| `src/poseidon/pow5.rs` | `Circuit/Pow5`, `Circuit/Gadget`; its test circuits: `Circuit/HashCircuit`, `Circuit/HashCircuitValues` | |
| `src/poseidon/septidon/*` | `Circuit/Septidon`, `Circuit/Degree5`, `Circuit/Values`; its test circuit: `Circuit/SeptidonTest` | |

Cargo features are parameters of the model: `short` (compact constants, Septidon default), `legacy`
(capacity without the 2^64 mark), `parallel_syn`. Halo2's `Value` is modelled as known values everywhere but in `Circuit/Values`,
which models the assignment code of both chips and of the gadget once more with values that may be unknown; C72 relates
the two.

## Trusted base

* Lean 4 kernel. Axioms, from `#print axioms` over every theorem in MANIFEST.json: `propext`, `Classical.choice`,
  `Quot.sound` and no other. `C55_degree5_stricter`, `C53_table_degree`, `C38_builder_aligned`,
  `C38_contents`, `C13_no_deadlock`, `C16_out_of_range_collision`, `C45_gadget_no_constants` and
  `C55_standard_unused_free`, `C72_hash_circuit`, `C73_ranges`, `C79_circuit`, `C79_known`, `C79_key`, `C111_unique`, `C111_set` do without `Classical.choice`; all the others use all three. No `sorry`, no
  `native_decide`, no `bv_decide`. `decide +kernel` is used only for computations on closed terms
  (constant tables, Pratt certificates, matrix identities, examples).
* The reading of the Rust code (no extraction, no execution).
* Semantics of dependencies, which are not in `/repo`. The assumed behaviour is written as Lean definitions in `Halo2/*`
  and beside the definitions that use it:
  * `halo2curves`/`ff`: field arithmetic is exact; `from_repr_vartime` compares with the modulus,
    `from_uniform_bytes` reduces modulo it; `pow_vartime` is exponentiation.
  * halo2: a table column is filled by one `assign_table`, a second one is an error (C78); rotations wrap modulo the
    number of rows; a gate must vanish on all rows; lookups hold on usable rows;
    the simple floor planner puts each region below the previous uses of its columns, other floor planners put them
    anywhere without overlap; filling a lookup table needs one usable row beyond its entries and stops at the last usable
    row (nothing is assumed of its cells below: `Run.Laid`, `CarriesLog`); the selector of a row is the
    boolean column before compression. All selectors of the crate are complex selectors (hash.rs:80, pow5.rs:102-105),
    which halo2 does not combine.
  * `MockProver::verify` (C69 and C75): blinding rows are poisoned, poison times zero is zero; a region must assign the cells
    queried where it enables a selector.
  * `ConstraintSystem::blinding_factors` (C76): `max(3, queries of the most-queried advice column) + 2`; the last
    `blinding_factors + 1` rows cannot be assigned.
  * `OnceCell`/`lazy_static`: one initialiser claims and publishes atomically.
  * `bitvec`, slice sort/dedup: as documented.
* Integer overflow is `Except.error .overflow` (debug builds); release builds wrap.
  * The argument behind `create_proof`/`verify_proof` (C86-C97, `Halo2/Argument`): gates, permutation and lookup
    argument as in the halo2 book and the versions of halo2 with the permuted-column lookup argument; one phase, no instance
    column. Lookups of any number of columns (`Wide`), compressed with the challenge `theta`; the crate itself has lookups
    of one column. Up to C100 commitments are ideal (the verifier reads true values of fixed polynomials of degree less than `n`);
    C101 and C102 replace them by KZG commitments opened with SHPLONK (`Halo2/Opening`, `Halo2/ArgumentKzg`), for provers that know
    the polynomials behind their group elements; the curve groups are modules over the scalar field with a bilinear map that is not zero on
    the generators; the random polynomial of the vanishing argument is left out. Challenges
    are uniform and independent (C97, C103: answers of a random oracle; in C103, `Halo2/Transcript`, it is asked with commitments and claimed
    values, for all eight challenges of the argument and the opening). For C96, what an honest prover sends (`Key.honest` in `Props/ArgumentHiding`): advice and permuted
    columns are random from the first row that cannot be assigned on, products one row later.
* Not modelled: the curves and the pairing themselves, that the secret of the parameters cannot be found, provers that do not know
  polynomials behind their commitments, hiding of the commitments to the pieces of the quotient (C96 and C105 show that values and
  commitments to columns hide the table; no random values are left for the pieces), that the hash of the transcript behaves
  like a random oracle (C97 and C103 assume it, with the key fixed before), serialisation of keys and proofs, the cost of anything, timing.

## What the model showed about the code

Each is a theorem, or an observation from the source where no theorem is named.

* `hash_msg(&[])` panics, natively (C06) and in the gadget (`C45_gadget_empty`).
* The digest and the domain of the last enabled custom row are unconstrained (`C30_last_row_free`).
* Two cells of each Septidon region (transition column, offsets 0 and 4) and `control_aux` in rows with control 0 are
  written but constrained by nothing; every other written cell of an enabled row or a region is
  determined by table columns 1 to 5 (`C84_exact`).
  They are not read by any other gate, so this is harmless.
* The domain of a continuation row is added to the state and not constrained: with it any digest can be proved
  (`C61_steered`), so users must look up the domain of every row. The source has a TODO there (hash.rs:213).
* Looking up the rows of a message one by one proves nothing about messages of more than one row
  (`C66_message_unbound`), even if the domains of continuation rows are all zero (`C66_message_mixed`): the table does
  not say which block a continuation row belongs to. Control-0 lookups are exact except for two zero words, where the
  last row answers with any digest (`C66_mpt`).
* Therefore two zero leaves can be looked up below any value on a right path of a tree (`C108_forged`): a circuit that looks up paths
  must rule out nodes with two zero words, or the depth at which they can be, by itself.
* One gate repairs both: if no enabled row with a control has a domain (heads included), rows of a message looked up one by one
  bind its digest, up to a collision of `hash_msg` written out in the table (`C94_message`); nothing honest is lost
  (`C94_complete`).
* `stream_inputs` accepts a stream with too few words and the circuit is then unsatisfiable (`C32_rejected`).
* In parallel mode `load` does not check the number of rows and truncates silently (`C37_capacity`).
* `constant_inputs` followed by `stream_inputs` panics (`C40_stream_after_constant`).
* Serial and parallel loading leave different layouts on a layouter that is not level (`C35_mode_matters`).
* `minimum_row_require()` counts the rows of the permutations only. With `STEP = 62` the range table alone needs 64
  rows, so the number is too small for tables of up to 7 rows (Septidon) or one row (Pow5) (`C64_minimum`); and as the
  last row of the circuit must be empty, it is always too small for Pow5 and a table that does not end in an empty row
  (`C64_pow5_never`).
* The sizes chosen in `tests/hash_proving.rs` (`hash_circuit`) and in `pow5.rs` are the least possible, and six rows
  are reserved as `septidon/tests.rs` assumes (`C76_tests`, `C76_pow5_sizes`, `C76_septidon`).
* `hash_block_size` is 9 in a `short` build, but the Pow5 chip used there needs 38 rows (`C44_pow5_short`).
* The gadget ignores `Domain::layout`, so the iden3 domains give another hash than natively (`C52_layout_ignored`).
* SHPLONK checks only the first of several values claimed for one commitment at one point (`C101_first`): circuits must not query one
  column at rotations that are equal modulo the number of rows. The crate's circuits do not, on more than ten rows (`C102_apart`).
* `GATE_DEGREE_5` does not give degree 5: the transition gate has degree 6 (`C53_septidon_degree5`).
* Grain parameters that do not fit their bit fields are silently truncated and collide (`C16_out_of_range_collision`).
* README and spec give `STEP` as 32, the code uses 62; README gives the range "298 to 320" for 289 to 320
  (`C58_readme`).
* `poseidon-circuit`'s `legacy` feature is not forwarded to `poseidon-base`.
* With `legacy` the two hash modes are not separated: a two-word message has the hash of an MPT node with domain 2
  (`C59_native`).
* `benches/hash.rs:12-17` clones the generator for each element, so the 16 "random" elements are all the same; the benchmarks hash
  messages of one repeated word.
* `secure_mds()` is `unimplemented!()` for both hard-coded specs; `fields.rs`, `binops.rs` and
  `sqrt_tonelli_shanks` are not used.
* The test of the Septidon chip calls `verify_at_rows(0..1, 0..0)`: it checks the gates on row 0 only and accepts any final
  state (`C69_septidon_test`). The chip itself passes on all rows (example beside it).
* Nothing checks that `SpongeConfig::step`, the `STEP` of the chip and the step given to `stream_inputs` are equal. A `STEP` that is
  too large makes the circuit accept messages and expose each row as a hash of its own (`C77_split`); with any other
  difference some lengths cannot be proved (`C77_rows`, `C77_steps`).
* In parallel mode the shape pass registers one auxiliary column only, so after `load` the floor planner takes the
  enabled rows of the caller's columns and of `q_enable` to be free: a later region on a table column overwrites the table
  (`C71_parallel_over`, `C71_parallel_rejected`). In serial mode it is put below and does no harm (`C71_serial_apart`).
* The range lookup of the controls is not switched by `q_enable`: unused rows below the table must keep head mark times
  previous control in range, nothing else is checked there (`C71_outside`).
