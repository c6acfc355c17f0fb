{"id": "C01", "title": "Executing a program word is executing the RV32IM instruction it encodes", "statement": "For every 32-bit word that is a valid RV32I/M computational, load, store, branch or jump encoding, decoding it at a pc and executing the decoded instruction on any machine state yields exactly the registers, pc and memory that the RISC-V unprivileged spec prescribes (immediate re-encodings such as SLLI->MUL, SRLI->DIVU, JAL->JALR, LUI/AUIPC->ADD are unobservable).", "quantifier": "all 2^32 words, all pcs, all register files, all memories", "why_tests_cant": "2^64 (word, pc) pairs times all register/memory contents; proptest samples a few encodings per opcode.", "anchors": ["runner/src/decode.rs:decode_instruction", "runner/src/decode.rs:extract_immediate", "runner/src/vm.rs:execute_instruction", "runner/src/state.rs:register_op"]}
{"id": "C02", "title": "The decoder accepts exactly the documented encodings and never panics", "statement": "decode_instruction(pc, word) fails, reporting exactly (pc, word), on precisely the words outside an explicit encoding table (RV32IM encodings, ECALL, and a listed set of system/fence encodings that decode to a no-op). In particular acceptance does not depend on the pc.", "quantifier": "all words, all pcs", "why_tests_cant": "A fuzz test that decoding does not panic samples the space and never checks rejection.", "anchors": ["runner/src/decode.rs:decode_instruction"]}
{"id": "C03", "title": "Register x0 reads as zero in every reachable state", "statement": "In every state reached from a freshly loaded program by any number of executed instructions (including ecalls), reading register 0 gives 0.", "quantifier": "all programs, all tapes, all run lengths", "why_tests_cant": "Universally quantified over executions.", "anchors": ["runner/src/state.rs:set_register_value", "runner/src/vm.rs:step"]}
{"id": "C04", "title": "Read-only memory and code never change during a run", "statement": "In every reachable state each address of the program's read-only memory still holds its initial byte, the set of read-only addresses is unchanged, and an instruction that would write to one of them aborts execution instead of producing a next state.", "quantifier": "all programs, tapes and run lengths, all store/ecall instructions", "why_tests_cant": "Requires all histories of stores and tape reads.", "anchors": ["runner/src/state.rs:store_u8", "runner/src/state.rs:StateMemory::new", "runner/src/ecall.rs:ecall_read", "runner/src/poseidon2.rs:ecall_poseidon2"]}
{"id": "C05", "title": "Memory is a byte map: loads see the latest store and an instruction touches only the addresses it reports", "statement": "Every instruction leaves every byte outside the addresses it reports as used unchanged; a byte loaded at an address equals the last byte stored there (by a store or a tape read or a hash ecall), or its initial value, and multi-byte accesses are little-endian with address wrap-around at 2^32.", "quantifier": "all states, all instructions, all histories", "why_tests_cant": "Quantifies over all interleavings of stores of different widths at overlapping and wrapping addresses.", "anchors": ["runner/src/vm.rs:store", "runner/src/state.rs:memory_load", "runner/src/ecall.rs:ecall_read"]}
{"id": "C06", "title": "The execution record is a gap-free chain of deterministic steps ending at the first halt", "statement": "If running a program succeeds, then the i-th recorded row has clock 2+i, its state is the result of executing the previous row's instruction, no recorded state is halted, the final state is halted, and the record is a function of program and initial state.", "quantifier": "all programs and initial states whose run terminates", "why_tests_cant": "Concerns all executions of all lengths.", "anchors": ["runner/src/vm.rs:step", "runner/src/state.rs:bump_clock"]}
{"id": "C07", "title": "Reading a tape consumes it front to back without loss or duplication", "statement": "Over any run, the bytes delivered by successive reads of the private, public, call and event tapes concatenate to exactly the prefix of that tape consumed so far; each read delivers min(requested, remaining) bytes, writes them contiguously at the requested buffer and never influences any other tape.", "quantifier": "all tapes, all sequences of reads with all request sizes, any interleaving with other instructions", "why_tests_cant": "All interleavings of reads on several tapes with arbitrary sizes.", "anchors": ["runner/src/state.rs:read_bytes", "runner/src/ecall.rs:ecall_read"]}
{"id": "C08", "title": "Commitment tapes and the self program id are constant over a run", "statement": "Every read of the events commitment, cast list commitment or self program id delivers the first min(n,32) bytes of the initial 32 byte value no matter how often and when it has been read before.", "quantifier": "all runs, all read sizes", "why_tests_cant": "All histories.", "anchors": ["runner/src/ecall.rs:ecall_read"]}
{"id": "C09", "title": "Division and remainder are total and satisfy the RISC-V division laws", "statement": "For all operands quotient and remainder satisfy dividend = quotient*divisor + remainder (mod 2^32), |remainder| < |divisor| and the remainder has the sign of the dividend, with division by zero giving all ones / the dividend and signed overflow giving (-2^31, 0).", "quantifier": "all 2^64 operand pairs", "why_tests_cant": "Operand space is 2^64.", "anchors": ["runner/src/vm.rs:div", "runner/src/vm.rs:rem", "runner/src/vm.rs:divu", "runner/src/vm.rs:remu"]}
{"id": "C10", "title": "High and low multiplication together give the exact product", "statement": "For all operands, mulh/mulhu/mulhsu together with mul are the upper and lower 32 bits of the exact 64-bit signed/unsigned/mixed product.", "quantifier": "all 2^64 operand pairs", "why_tests_cant": "Operand space is 2^64.", "anchors": ["runner/src/vm.rs:mulh", "runner/src/vm.rs:mulhu", "runner/src/vm.rs:mulhsu"]}
{"id": "C100", "title": "The token and wallet examples do exactly what a transfer asks", "statement": "The token program completes exactly if every call to it is a transfer that is followed on the tape by the token's request to the named wallet, with the key of the object's owner, and its events are a read of the object and a write in which only the owner's key is changed to the remittee's; the wallet program completes exactly if the i-th approval asked of it names the hash of the i-th 32 bytes of its private tape; honest transfers recorded natively complete in both programs.", "quantifier": "all call tapes, event tapes, private tapes, objects, hash functions and serialisations", "why_tests_cant": "All call histories and adversarial tapes.", "anchors": ["examples/token/core-logic/src/lib.rs: dispatch, transfer", "examples/token/mozakvm/src/main.rs: main", "examples/wallet/core-logic/src/lib.rs: dispatch, approve_signature, BlackBox", "examples/wallet/mozakvm/src/main.rs: main"]}
{"id": "C101", "title": "A token changes hands only with its owner's private key", "statement": "If the token program and the wallet program complete on the same call tape then, for every transfer made, the wallet's private tape holds 32 bytes that hash to the public key of the owner of the object; and what the wallet approves determines the new owner's key.", "quantifier": "all call tapes, objects, keys and other programs in the cast", "why_tests_cant": "The claim is about every tape and every other program an adversary could bring in.", "anchors": ["examples/token/core-logic/src/lib.rs: transfer", "examples/wallet/core-logic/src/lib.rs: approve_signature, BlackBox"]}
{"id": "C102", "title": "The matcher's block proof is about the actual old and new objects", "statement": "After any history of calls, finalizing the matcher with a height and the old and new object of each address succeeds exactly when, for every address touched by the transactions that became ready since the last block, their events make the old object into the new one at that height; the proof's event hash is then the root over the touched addresses of the addresses' event hashes, and its state hash the root of the summaries of the changes from the old to the new objects, in any iteration order of the hash maps.", "quantifier": "all histories of ingests, readies and finalizes, all objects, heights and hash functions", "why_tests_cant": "All histories, event lists and map orders.", "anchors": ["node/src/block_proposer/matches.rs: Matches::finalize", "recproofs/src/circuits/match_delta.rs: LeafCircuit::prove, BranchCircuit::prove, prove_one"]}
{"id": "C103", "title": "The transaction proof and the match proof of a block agree on its events", "statement": "If the transaction accumulator and the matcher are given the same events for a block and both finish it, the event root of the transaction proof is the event hash of the match proof, so that the block circuit accepts the two together.", "quantifier": "all histories of the accumulator and the matcher, all events and hash functions", "why_tests_cant": "The two trees are built by different code in different orders; only all histories and shapes settle it.", "anchors": ["node/src/block_proposer/transactions.rs: TransactionAccumulator::finalize", "node/src/block_proposer/matches.rs: Matches::finalize"]}
{"id": "C104", "title": "The block log grows by exactly the blocks whose proofs fit", "statement": "For every sequence of attempts to add a block: an attempt succeeds exactly when the three proofs agree on the events and on the changes, the match proof is for the next height and the state update starts from the current state; the height reported is the number of blocks accepted, a refused attempt changes nothing, and the log's proof certifies a chain of that many blocks from the initial state to the current one.", "quantifier": "all sequences of fewer than p attempts with any proofs", "why_tests_cant": "All sequences of good and bad attempts.", "anchors": ["node/src/block_proposer/block.rs: Blocks::new, height, increment", "recproofs/src/circuits/verify_block.rs: prove", "recproofs/src/circuits/verify_block/core.rs"]}
{"id": "C105", "title": "No transaction can bring the matcher down", "statement": "After any history, ingesting a transaction's events and declaring it ready succeed or return an error; conflicting events do not bring the process down.", "quantifier": "all histories and events", "why_tests_cant": "All histories of conflicting transactions.", "anchors": ["node/src/block_proposer/matches.rs: Matches::ingest_events, ready_tx", "recproofs/src/circuits/accumulate_delta/core.rs: from_event, set_witness_from_proofs, merge_branch_helper"]}
{"id": "C106", "title": "The node converts a program's events without loss", "statement": "The event the node makes of an event on the tape has its type, its address as a little-endian 64-bit number and the words of the program identifier and of the value as field elements, and different events or programs give different results.", "quantifier": "all events and program identifiers", "why_tests_cant": "The domain is all 32-byte digests.", "anchors": ["node/src/block_proposer.rs: convert_event, convert_event_type"]}
{"id": "C107", "title": "A natively recorded transaction replays in the VM", "statement": "When a transaction is run natively and recorded, and the CLI makes the tapes of one of its programs from the recording, that program, doing in the VM what it did natively, recognises itself, reads exactly the input written for it, is refused no send, receive or event, and shuts down cleanly with the commitments the CLI computed; the tapes depend neither on the build profile of the CLI nor on that of the program.", "quantifier": "all transactions (nested calls of any depth, inputs, events), programs, hash functions, archive formats and build profiles", "why_tests_cant": "Needs every nesting of calls and every set of event addresses; the existing tests replay single fixed recordings.", "anchors": ["sdk/src/native/inputtape.rs: RawTape::write", "sdk/src/native/calltape.rs: send", "sdk/src/native/identity.rs: add_identity, rm_identity", "cli/src/runner.rs: raw_tapes_from_system_tape, length_prefixed_bytes", "sdk/src/common/system.rs: SYSTEM_TAPE, populate_call_tape, populate_event_tape, ensure_clean_shutdown"]}
{"id": "C108", "title": "A circuit's named public values are read from and written to their own places", "statement": "For every circuit and every named public value of it (a number, a flag, a hash, a Merkle cap, verifier data, arrays and vectors of these): the positions are found exactly when all its targets are public inputs; read from a proof the value is that of its targets; written into a list of public values it is read back, and no other public value and no other named value changes; a vector of the wrong length is refused.", "quantifier": "all circuits, lists of public inputs, shapes of values, values and proofs", "why_tests_cant": "The positions depend on the order in which each circuit registers its public inputs; tests see the layouts of the circuits there are.", "anchors": ["recproofs/src/indices.rs: TargetIndex, BoolTargetIndex, HashOutTargetIndex, ArrayTargetIndex, VecTargetIndex, MerkleCapTargetIndex, VerifierCircuitTargetIndex; new, get_target, set_target, get_field, set_field"]}
{"id": "C109", "title": "The recursive verifier circuit accepts exactly the VM proofs that the native verifier accepts", "statement": "For every system of tables, all table sizes and every list of field elements: a recursive proof can publish these elements if and only if they are the entry point, bytes of the program id (as in C88) and the values of the public sub tables of a VM proof of these sizes that the native verifier accepts. From an accepted proof the circuit's prover gets a satisfying assignment that publishes the claimed program id. For the VM's tables the published elements are, in this order, the entry point, 32 program id bytes, 32 event commitment bytes and 32 cast list commitment bytes.", "quantifier": "all proofs, transcripts, systems of tables, numbers of challenges, table sizes, assignments and public values", "why_tests_cant": "A proof that only one of the two verifiers accepts has to be constructed by an adversary: tests run both on honest proofs.", "anchors": ["circuits/src/stark/recursive_verifier.rs: recursive_mozak_stark_circuit, MozakStarkVerifierCircuit::prove, verify_stark_proof_with_challenges_circuit, verify_quotient_polynomials_circuit, eval_l_0_and_l_last_circuit, add_virtual_stark_proof_with_pis, VMRecursiveProofPublicInputs", "circuits/src/stark/verifier.rs: verify_proof, verify_stark_proof_with_challenges, verify_quotient_polynomials, validate_proof_shape", "circuits/src/stark/proof.rs: get_challenges, to_fri_openings, recover_degree_bits", "circuits/src/cross_table_lookup.rs: eval_cross_table_lookup_checks_circuit, verify_cross_table_lookups_and_public_sub_table_circuit"]}
{"id": "C11", "title": "System calls have exactly their documented effect", "statement": "HALT is the only instruction that halts; it changes nothing but the halt flag and clock (the pc stays). An ecall number outside the documented set is a no-op that advances the pc. No ecall writes any register.", "quantifier": "all states, all ecall numbers (2^32)", "why_tests_cant": "2^32 ecall numbers and all states.", "anchors": ["runner/src/ecall.rs:ecall", "runner/src/ecall.rs:ecall_halt"]}
{"id": "C110", "title": "The recursive batch verifier circuit accepts exactly the well-shaped batch proofs that the native batch verifier accepts", "statement": "For every system of tables, choice of public tables, table sizes and list of field elements: a recursive proof of a batch proof can publish these elements if and only if they are the entry point, bytes of the program id (as in C88) and the public sub table values of a batch proof that the native batch verifier accepts for the same public tables and sizes, and whose openings have the numbers of values that the tables have. From such a proof the circuit's prover gets a satisfying assignment.", "quantifier": "all batch proofs, transcripts, systems of tables, public tables, sizes, assignments and public values", "why_tests_cant": "A proof that only one of the two verifiers accepts has to be constructed by an adversary: tests run both on honest proofs.", "anchors": ["circuits/src/stark/recursive_verifier.rs: recursive_batch_stark_circuit, MozakBatchStarkVerifierCircuit::prove", "circuits/src/stark/batch_verifier.rs: batch_verify_proof", "circuits/src/stark/batch_prover.rs: batch_fri_instances_target, sort_degree_bits, batch_reduction_arity_bits"]}
{"id": "C111", "title": "A proof that the prover returns for valid traces is accepted by the verifier", "statement": "For every well-formed system of tables and all traces whose rows satisfy the tables' constraints, whose lookups balance and whose public sub tables select a row once or not at all: if prove_with_traces returns a proof, verify_proof accepts it. And it returns one unless a row of a lookup combines to zero under a drawn challenge, a drawn opening point lies in a table's subgroup, or the polynomial commitment cannot be opened.", "quantifier": "all systems of tables, sizes, traces, entry points and transcripts", "why_tests_cant": "Prover and verifier compute challenges, running sums, quotients and openings separately; a test shows that they agree for a few programs, not for all traces.", "anchors": ["circuits/src/stark/prover.rs: prove_with_traces, prove_with_commitments, prove_single_table", "circuits/src/stark/poly.rs: compute_quotient_polys", "circuits/src/cross_table_lookup.rs: cross_table_lookup_data, partial_sums", "circuits/src/public_sub_table.rs: public_sub_table_data_and_values, get_values", "circuits/src/stark/proof.rs: StarkOpeningSet::new", "circuits/src/stark/verifier.rs: verify_proof"]}
{"id": "C112", "title": "An accepted proof of tables that are not as claimed needs challenges from small sets", "statement": "If the tables committed to in a proof violate a constraint in some row, or some lookup does not balance, or the rows published for a sub table are not the selected rows of its table up to order, then verify_proof rejects unless, in some round, the challenges drawn come from a set that is small and fixed before they are drawn: a fraction (width + 2) N / p of the pairs of lookup challenges, fewer alphas than a table has checks, fewer than (k + 1) n opening points zeta. This assumes that FRI guarantees openings to be values of committed polynomials, and that the published rows have the number and width of the system's declarations.", "quantifier": "all systems of tables, committed tables, running sums, quotients, challengers and proofs", "why_tests_cant": "It is about every dishonest prover and about fractions of sets of 2^64 and 2^128 challenges.", "anchors": ["circuits/src/stark/verifier.rs: verify_proof, verify_stark_proof_with_challenges, verify_quotient_polynomials", "circuits/src/cross_table_lookup.rs: verify_cross_table_lookups_and_public_sub_tables, eval_cross_table_lookup_checks", "circuits/src/public_sub_table.rs: reduce_public_sub_tables_values", "circuits/src/stark/proof.rs: get_challenges"]}
{"id": "C113", "title": "Accepted tables come from a run of the program", "statement": "If tables satisfy every constraint, all lookups between them balance and the program and initial-memory tables are those of a program, then the VM run from the program's entry point halts after exactly the instructions the tables show, and every instruction reads and writes in the tables what the VM's registers and memory hold at that step. (False of the code: for every program there are accepted tables that halt at its first instruction, whatever that instruction is.)", "quantifier": "all programs and all tables, however they were produced", "why_tests_cant": "It is about every dishonest prover: tests only use tables generated from a run, where it holds trivially.", "anchors": ["circuits/src/cpu/stark.rs: eval_packed_generic", "circuits/src/cpu/columns.rs: lookup_for_program_rom", "circuits/src/stark/mozak_stark.rs: all_lookups", "circuits/src/generation/mod.rs: generate_traces", "runner/src/vm.rs: step"]}
{"id": "C114", "title": "An accepted batch proof of tables that are not as claimed needs challenges from small sets", "statement": "If the tables committed to in a batch proof violate a constraint in some row, or some lookup does not balance, or the rows published for a sub table are not the selected rows of its table up to order, then batch_verify_proof rejects, and the recursive circuit for batch proofs is not satisfied, unless in some round the challenges drawn come from a set that is small and fixed before they are drawn: a fraction (width + 2) N / p of the pairs of lookup challenges, at most as many alphas as a table has checks, fewer than (k + 1) n opening points zeta; whichever tables are in the batch. This assumes that FRI guarantees openings to be values of committed polynomials and, for the native verifier, that the opened quotients are all there.", "quantifier": "all systems of tables, choices of public tables, committed tables, running sums, quotients, challengers and proofs", "why_tests_cant": "It is about every dishonest prover and about fractions of sets of 2^64 and 2^128 challenges.", "anchors": ["circuits/src/stark/batch_verifier.rs: batch_verify_proof", "circuits/src/stark/recursive_verifier.rs: recursive_batch_stark_circuit", "circuits/src/stark/verifier.rs: verify_quotient_polynomials", "circuits/src/cross_table_lookup.rs: verify_cross_table_lookups_and_public_sub_tables"]}
{"id": "C115", "title": "A batch proof of valid traces is accepted", "statement": "If all tables satisfy their constraints, all lookups balance and the filters of the public sub tables are 0 or 1, then whatever batch_prove returns is accepted by batch_verify_proof with the table sizes it returns, has the shape that the recursive circuit expects, satisfies the recursive circuit for batch proofs, and publishes the entry point, the program id and the selected rows; whichever tables are public, of whatever sizes. batch_prove does return a proof, unless one of the random challenges is an exceptional one.", "quantifier": "all systems of tables, choices of public tables, valid traces of all sizes and all challenges", "why_tests_cant": "It is about all combinations of table sizes and public tables, and about every value that the challenges may take.", "anchors": ["circuits/src/stark/batch_prover.rs: batch_prove, batch_prove_with_commitments, batch_fri_instances, merge_fri_instances, batch_reduction_arity_bits", "circuits/src/stark/batch_verifier.rs: batch_verify_proof", "circuits/src/stark/proof.rs: StarkOpeningSet::batch_new, BatchProof::get_challenges", "circuits/src/stark/recursive_verifier.rs: recursive_batch_stark_circuit"]}
{"id": "C116", "title": "A transaction bundle speaks for the programs that took part", "statement": "Bundling the recording of a native run gives a transaction whose cast list is the sorted list, without repetition, of the programs that were called (the same that the programs commit to in the VM); with one attestation for each of them, the program that the user called first, holding the public input written for it and the events it emitted, in order; and whose call tape hash is the commitment to the call tape of a run of the program that the user called. All programs of the cast list agree on that hash.", "quantifier": "all sequences of native actions, maps of programs, loaders, hash functions, archive formats and commitments", "why_tests_cant": "The cast list, the order of the attestations and the contents depend on the whole nested history of calls, inputs and events.", "anchors": ["cli/src/main.rs: BundleTransaction", "node/src/types.rs: Transaction, Attestation", "cli/src/runner.rs: raw_tapes_from_system_tape", "circuits/src/storage_device/generation.rs: generate_call_tape_trace"]}
{"id": "C117", "title": "Program identifiers survive being written as text", "statement": "What is printed for a program identifier is read back as the same identifier, different identifiers are printed differently, and a text is read as an identifier exactly if it is MZK- followed by the 64 hexadecimal digits of its bytes, letters being of either case; anything else is refused. Hence the programs map gives for a program the path of the last entry that names it, and the check of a recursive proof against the identifier that the user typed passes exactly if the proof publishes the bytes that the text spells.", "quantifier": "all texts, identifiers, programs maps and published field elements", "why_tests_cant": "It ranges over all texts of any length with any characters.", "anchors": ["sdk/src/common/types/program_identifier.rs: Debug, From<String>", "sdk/src/common/types/poseidon2hash.rs: From<Vec<u8>>", "cli/src/main.rs: ids_and_paths_from_cast_list, VerifyRecursiveVMProof, SelfProgId", "cli/src/bin/dump-self-prog-id.rs"]}
{"id": "C118", "title": "Native runs of the example programs complete in the VM", "statement": "If in a natively recorded transaction, whatever else it does, the counter program (or the token program) runs its dispatch whenever it is called, then on the tapes that the CLI makes for it the program completes in the VM and shuts down cleanly. The wallet, which natively approves everything, does so exactly if the i-th 32 bytes of its private input hash to the key of the i-th approval asked of it. The native main of the counter completes exactly if the counter can go up twice within 64 bits and leaves it one higher; the native mains of the token and of the wallet always run; for both there are tapes if they are short enough, and all programs complete with the owner's key, the wallet with no bytes that do not begin with 32 of the same hash. For two objects at addresses that differ in the top bit there are no tapes at all.", "quantifier": "all transactions, arguments, objects, keys, archives that are read back, and build profiles", "why_tests_cant": "A test runs single native mains on fixed seeds; the property ranges over all transactions in which the programs take part, at any depth of calls.", "anchors": ["examples/counter/core-logic/src/lib.rs: dispatch, mutate_counter", "examples/counter/native/src/main.rs", "examples/token/core-logic/src/lib.rs: transfer", "examples/token/native/src/main.rs", "examples/wallet/core-logic/src/lib.rs: approve_signature", "sdk/src/native/calltape.rs: send", "cli/src/runner.rs: raw_tapes_from_system_tape", "sdk/src/common/system.rs: ensure_clean_shutdown", "examples/wallet/native/src/main.rs", "examples/token/native/src/main.rs"]}
{"id": "C119", "title": "The input tape example completes exactly on matching inputs and at most one call", "statement": "The input tape example in the VM completes exactly if the messages to it on the call tape come from other programs of the cast and can be read, it is called at most once, and, if it is called, its public input has 32 bytes and its private input is the same with one added to each byte (modulo 256). After any native transaction in which it runs its own dispatch, on the tapes that the CLI makes for it, it completes and shuts down cleanly exactly under that condition on the inputs written for it. The native main completes for any 32 bytes, and does not if it calls the program once more.", "quantifier": "all call tapes, inputs, native transactions, archives that are read back, and build profiles", "why_tests_cant": "A test runs one native main with one seed; the property ranges over all inputs and all transactions.", "anchors": ["examples/inputtape/core-logic/src/lib.rs: raw_tapes_test, dispatch", "examples/inputtape/mozakvm/src/main.rs", "examples/inputtape/native/src/main.rs", "sdk/src/mozakvm/inputtape.rs: read, input_tape_len", "sdk/src/native/identity.rs: add_identity, rm_identity"]}
{"id": "C12", "title": "The fetched instruction is the decoding of the four little-endian image bytes at the pc", "statement": "Building code from a byte image yields an entry at an address iff the address is 4-aligned and one of the four bytes at it is in the image, and that entry decodes exactly the little-endian word with absent bytes as zero.", "quantifier": "all images, all addresses", "why_tests_cant": "All images.", "anchors": ["runner/src/code.rs:Code::from"]}
{"id": "C120", "title": "Debug mode passes exactly the traces that satisfy the constraints and lookups", "statement": "With debug mode on, the prover goes on past the checks exactly if every row of every table satisfies the constraints of the table (transition constraints on all rows but the last, and so on) and, for every cross table lookup, every tuple is looked up as often as it is there; otherwise it panics. For valid traces debug mode changes nothing in what the prover or the batch prover returns. A proof made in debug mode is accepted by the verifier, whatever the traces are, if the public sub tables select each row once or not at all; debug mode does not check the latter.", "quantifier": "all systems of tables whose lookups mention existing columns, all traces, lookups, configurations and challenges", "why_tests_cant": "Tests run debug mode on traces made by the honest generators, where it never fires; that it fires on every bad trace and on no good one ranges over all traces.", "anchors": ["circuits/src/generation.rs: debug_traces, debug_single_trace, transpose_polys", "circuits/src/cross_table_lookup.rs: check_single_ctl, debug_ctl, MultiSet::process_row", "circuits/src/stark/prover.rs: prove", "circuits/src/stark/batch_prover.rs: batch_prove"]}
{"id": "C121", "title": "Executing a list of instructions is running it on an RV32IM machine", "statement": "`execute` and `execute_code_with_ro_memory`, given a list of RV32IM instructions, initial memory and initial registers, return the record of the run of an RV32IM machine that starts at address zero with the list laid out at 0, 4, 8 and so on: later entries for the same address or register win, read-only entries win over writable ones, and register zero stays zero. When the machine gets to the address after the list, the program is halted with a0 zero and all other registers and the memory as the machine left them, and no tape has been read. A list without jumps and branches is executed in order, once. The call panics if the machine tries to write a read-only byte, goes to an address without an instruction, or if a register number above 31 is given. If the machine goes on for ever, the call does not return.", "quantifier": "all lists of RV32IM instructions that fit into memory, all initial memories and registers, all tapes, all lengths of runs", "why_tests_cant": "Nearly all of the repository's tests run their code through this function, so they cannot test it; each fixes a program, a memory and registers.", "anchors": ["runner/src/code.rs: execute, execute_code_with_ro_memory", "runner/src/elf.rs: Program::create", "runner/src/state.rs: set_register_value"]}
{"id": "C13", "title": "Loading an ELF puts every segment byte where its flags say", "statement": "After loading a segment list, an address is read-only iff it lies in a readable non-writable segment; memory at an address holds the byte of the last covering segment of its class (read-only: readable and not writable; read-write: flags exactly RW; other segments are not in data memory), read-only taking precedence over read-write, zero-filled past the file size; executable segments populate the code; the start pc is the 4-aligned entry point.", "quantifier": "all segment lists", "why_tests_cant": "All segment layouts and overlaps.", "anchors": ["runner/src/elf.rs:extract_elf_data", "runner/src/elf.rs:internal_load_elf", "runner/src/state.rs:StateMemory::new"]}
{"id": "C14", "title": "Word images are rejected if words overlap and otherwise preserve every word", "statement": "Converting a map of words into byte data aborts iff two distinct words overlap (modulo 2^32) or a word ends at or beyond the end of the address space; otherwise loading four bytes little-endian at each key gives back its word and nothing else is present. A program built from 4-aligned words fetches at each key the instruction its word encodes.", "quantifier": "all word maps", "why_tests_cant": "All word maps.", "anchors": ["runner/src/elf.rs:Data::from"]}
{"id": "C15", "title": "The hash ecall absorbs the whole input and its recorded sponge trace is a chain", "statement": "For every non-empty input of a multiple of 8 bytes, the ecall records one sponge step per 8 bytes, each step's preimage is the previous output with the next 8 bytes overwritten in the rate part, only the last is marked as output, and the 32 bytes written are the little-endian encodings of the first four output elements; an empty input or a length not divisible by 8 aborts.", "quantifier": "all inputs and permutations", "why_tests_cant": "All input lengths and contents.", "anchors": ["runner/src/poseidon2.rs:hash_n_to_m_no_pad", "runner/src/poseidon2.rs:ecall_poseidon2"]}
{"id": "C16", "title": "Trace columns agree with the execution", "statement": "For every executed instruction the recorded destination value is what register rd holds afterwards (if rd is not 0 and the instruction writes rd), the recorded new pc is the next row's pc, recorded operands are the register contents before execution, and the recorded memory value is the value loaded or stored.", "quantifier": "all states and instructions", "why_tests_cant": "All states.", "anchors": ["runner/src/vm.rs:execute_instruction", "runner/src/state.rs:Aux"]}
{"id": "C17", "title": "Execution aborts only for documented reasons", "statement": "If executing an instruction fails, then there is no code at the pc, or the code there is undecodable, or the instruction writes to read-only memory, or it is the PANIC call, a log call with a bad message, or a hash call with a bad length (or, in overflow-checked builds, a range past the end of the address space).", "quantifier": "all programs, all states", "why_tests_cant": "A test can only exhibit some failures; the claim excludes failures in all 2^32-register-file states.", "anchors": ["runner/src/vm.rs:execute_instruction", "runner/src/ecall.rs:ecall"]}
{"id": "C20", "title": "CPU constraints force correct addition, subtraction, and bitwise results", "statement": "For any table row satisfying the CPU/ADD constraints whose looked-up values are 32-bit, the destination value is the wrapping sum/difference or the bitwise and/or/xor of the operands.", "quantifier": "all rows over the Goldilocks field", "why_tests_cant": "Soundness quantifies over adversarial witnesses over a 64-bit field, not over honest traces.", "anchors": ["circuits/src/ops/add/stark.rs:generate_constraints", "circuits/src/cpu/sub.rs:constraints", "circuits/src/cpu/bitwise.rs:constraints"]}
{"id": "C21", "title": "CPU constraints force correct multiplication", "statement": "For any row satisfying the multiplication constraints and range checks, the destination is the low/high half of the exact (signed/unsigned/mixed) product.", "quantifier": "all rows over the Goldilocks field", "why_tests_cant": "Adversarial witnesses.", "anchors": ["circuits/src/cpu/mul.rs:constraints"]}
{"id": "C22", "title": "CPU constraints force correct division and remainder", "statement": "For any row satisfying the division constraints and range checks, destination is the RISC-V quotient resp. remainder including division by zero and signed overflow, and shift right arithmetic/logical results are correct.", "quantifier": "all rows over the Goldilocks field", "why_tests_cant": "Adversarial witnesses.", "anchors": ["circuits/src/cpu/div.rs:constraints"]}
{"id": "C23", "title": "CPU constraints force correct comparisons and branches", "statement": "For any row satisfying the comparison constraints with the range checks the circuit performs, less-than is decided correctly, and the next pc is the branch target iff the branch condition holds.", "quantifier": "all rows over the Goldilocks field", "why_tests_cant": "Adversarial witnesses.", "anchors": ["circuits/src/cpu/signed_comparison.rs", "circuits/src/cpu/branches.rs:constraints", "circuits/src/ops/blt_taken/stark.rs"]}
{"id": "C24", "title": "CPU constraints force correct shift amounts and jumps", "statement": "For any row satisfying the shift constraints and the shift table lookup, multiplier is 2^(op2 mod 32); for jalr rows new pc and return address are as executed.", "quantifier": "all rows over the Goldilocks field", "why_tests_cant": "Adversarial witnesses.", "anchors": ["circuits/src/cpu/shift.rs:constraints", "circuits/src/bitshift/stark.rs", "circuits/src/cpu/jalr.rs:constraints"]}
{"id": "C25", "title": "The memory table forces every read to return the last write", "statement": "Any table satisfying the memory constraints (with its range-check lookups) is, per address, a time-ordered log beginning with an initialisation in which every load returns the value of the immediately preceding entry, and stores to addresses initialised read-only are impossible.", "quantifier": "all tables of all lengths over the field", "why_tests_cant": "Adversarial witnesses of unbounded length.", "anchors": ["circuits/src/memory/stark.rs:generate_constraints"]}
{"id": "C26", "title": "The register table forces every register read to return the last write", "statement": "Any table satisfying the register constraints (with range checks) begins each register's log with an initialisation, keeps registers in order and time-ordered, and every read returns the preceding value.", "quantifier": "all tables of all lengths", "why_tests_cant": "Adversarial witnesses.", "anchors": ["circuits/src/register/general/stark.rs", "circuits/src/register/zero_read", "circuits/src/register/zero_write"]}
{"id": "C27", "title": "Packed program ROM entries identify the instruction", "statement": "Two instructions with in-range fields have the same packed representation only if all packed fields coincide; every executed row's looked-up instruction is therefore in the program.", "quantifier": "all pairs of instruction rows", "why_tests_cant": "Injectivity over the whole field-size domain.", "anchors": ["circuits/src/program/columns.rs:ProgramRom", "circuits/src/cpu/columns.rs:lookup_for_program_rom"]}
{"id": "C28", "title": "Cross-table lookups hold only for equal multisets", "statement": "If the filtered rows of the looking tables and the looked tables differ as multisets, the lookup argument's sums agree for at most a number of challenges bounded by the number of rows; if they are equal, honest partial sums always satisfy the checks.", "quantifier": "all pairs of tables, all challenges", "why_tests_cant": "Probability bound over all challenges.", "anchors": ["circuits/src/cross_table_lookup.rs:verify_cross_table_lookups_batch", "circuits/src/cross_table_lookup.rs:partial_sums"]}
{"id": "C29", "title": "The constraint expression language evaluates as ordinary arithmetic and caching is transparent", "statement": "For every program that builds expressions with the public operators (literals, constants, +, -, *, negation, is_binary, reduce_with_powers, sums), evaluating the results with the plain evaluator or with the caching evaluator gives exactly the values ordinary ring arithmetic assigns to that program, for every evaluator that follows the ring operations (native field, extension field, in-circuit); the cache never changes a value and visits every distinct node once; the constraints pushed to the native and in-circuit consumer are those values with the declared location filter. Arithmetic on two plain integers is folded in i64: a build with overflow checks panics rather than give a wrong value, one without them wraps.", "quantifier": "all expressions, all evaluators", "why_tests_cant": "All expression DAGs.", "anchors": ["expr/src/lib.rs:Cached", "expr/src/lib.rs:PureEvaluator", "expr/src/ops.rs"]}
{"id": "C30", "title": "The range check tables accept exactly 32-bit and 8-bit values", "statement": "A value can be looked up in the 32-bit table iff it is below 2^32, provided limbs are looked up in the 8-bit table, which contains exactly 0..255.", "quantifier": "all field elements, all tables", "why_tests_cant": "All tables/field elements.", "anchors": ["circuits/src/rangecheck/columns.rs", "circuits/src/rangecheck_u8/stark.rs"]}
{"id": "C31", "title": "The CPU skeleton table forces consecutive clocks and a single halt", "statement": "Any table satisfying the skeleton constraints starts at clock 2 at the program entry point; running rows have clocks 2,3,4,... with pc threaded from row to row, once stopped never running again, and it ends stopped.", "quantifier": "all tables of all lengths", "why_tests_cant": "Adversarial witnesses.", "anchors": ["circuits/src/cpu_skeleton/stark.rs:generate_constraints"]}
{"id": "C32", "title": "Storage device tables deliver tape bytes contiguously", "statement": "(a) Any table satisfying the storage constraints consists of read calls each followed by exactly `size` byte rows of the same time with consecutive addresses (mod 2^32) and remaining size going down to zero, and stores nothing else. (b) The table generated for every honest execution and every tape satisfies the constraints.", "quantifier": "all tables of all lengths; all executions, all tapes", "why_tests_cant": "Adversarial witnesses; all sequences of read calls of all lengths.", "anchors": ["circuits/src/storage_device/stark.rs:generate_constraints", "circuits/src/storage_device/generation.rs:generate_storage_trace", "circuits/src/storage_device/columns.rs:lookup_for_memory"]}
{"id": "C33", "title": "XOR and shift-amount tables contain only correct entries", "statement": "Every row accepted by the xor table satisfies out = a xor b on 32 bits; the fixed shift table contains exactly the pairs (k, 2^k), k<32.", "quantifier": "all rows / tables", "why_tests_cant": "Adversarial witnesses.", "anchors": ["circuits/src/xor/stark.rs", "circuits/src/bitshift/stark.rs"]}
{"id": "C34", "title": "Only executed instructions touch registers, and BLTU is taken only when its condition holds", "statement": "In any set of accepted tables every register write comes from an instruction that was executed at that time, and the fast path table for taken BLTU branches contains only branches whose first operand is less than the second.", "quantifier": "all accepted sets of tables", "why_tests_cant": "Adversarial witnesses; cancellation across tables.", "anchors": ["circuits/src/ops/add/mod.rs", "circuits/src/ops/blt_taken/mod.rs", "circuits/src/stark/mozak_stark.rs:RangecheckTable", "circuits/src/stark/mozak_stark.rs:RegisterLookups"]}
{"id": "C35", "title": "Every honest execution can be proved", "statement": "For every program and every successful execution of it, the CPU and ADD tables generated from the execution history satisfy every constraint, and all their lookups are entries of the range-check, xor and shift tables. (False of the code: a signed operation on -31 and -1, a jump to an odd address, the trace-log or an unknown system call, and straight-line code in the last word of the address space run but cannot be proved.)", "quantifier": "all programs, all inputs, all execution lengths", "why_tests_cant": "Ranges over all executions.", "anchors": ["circuits/src/cpu/generation.rs:generate_cpu_trace", "circuits/src/cpu/stark.rs:generate_constraints", "circuits/src/ops/add/mod.rs:generate"]}
{"id": "C36", "title": "CPU constraints force correct loads and stores", "statement": "In any row for a load or store that satisfies the CPU constraints and lookups, the looked-up address is register plus immediate modulo 2^32, the destination of a load is the looked-up value, zero- or sign-extended as the instruction demands, and the value sent to memory by a store is the low byte, halfword or word of the source register. (False of the code for the values.)", "quantifier": "all rows over the Goldilocks field", "why_tests_cant": "Adversarial witnesses.", "anchors": ["circuits/src/cpu/memory.rs:constraints", "circuits/src/cpu/columns.rs:lookup_for_memory", "circuits/src/cpu/columns.rs:ops_that_use_xor"]}
{"id": "C37", "title": "CPU constraints force the right system call and the next instruction after it", "statement": "In any row for ECALL that satisfies the CPU constraints exactly the system call whose number is in register a0 is selected, and execution continues at pc + 4 (or stays for a halt). (False of the code for the next pc.)", "quantifier": "all rows over the Goldilocks field", "why_tests_cant": "Adversarial witnesses.", "anchors": ["circuits/src/cpu/ecall.rs:constraints", "circuits/src/cpu/columns.rs:lookup_for_skeleton"]}
{"id": "C38", "title": "A lookup's column expressions mean ordinary arithmetic in every evaluator", "statement": "A column expression written with the column operators (columns, constants, sums, differences, negation, complement, integer multiples, flip to the next row, differences between rows, weighted sums) and converted for a lookup has, on every pair of rows, the value of that arithmetic in the field, whether evaluated by the prover on a table, by the native verifier at an opening in an extension field, or in the recursive verifier's circuit; the column the prover composes with a challenge has the value the verifier combines; and the prover's running sums are those of the evaluated rows.", "quantifier": "all expressions, tables, rows, challenges and field extensions", "why_tests_cant": "The expressions are a language of unbounded depth, evaluated by four different functions.", "anchors": ["circuits/src/linear_combination.rs: ColumnSparse, zip_with, eval_table, eval, eval_row, eval_circuit", "circuits/src/linear_combination_typed.rs: ColumnWithTypedInput", "circuits/src/columns_view.rs: columns_view_impl, make_col_map", "circuits/src/cross_table_lookup.rs: compose_ctl_with_challenge, partial_sums"]}
{"id": "C39", "title": "Half-word and word accesses are split into bytes at consecutive addresses", "statement": "Every executed row of the half-word and full-word memory tables that the CPU table can look up corresponds to two (four) single-byte accesses with the same time and direction at the address and its successors modulo 2^32, and the value the CPU sees is the little-endian combination of those bytes.", "quantifier": "all satisfying tables, all rows, all field values", "why_tests_cant": "Adversarial witnesses over a 64-bit field; wrapping at the top of the address space.", "anchors": ["circuits/src/memory_halfword/stark.rs:generate_constraints", "circuits/src/memory_fullword/stark.rs:generate_constraints", "circuits/src/memory_halfword/columns.rs", "circuits/src/memory_fullword/columns.rs"]}
{"id": "C40", "title": "merkleize computes the root of the address trie", "statement": "For every strictly address-sorted non-empty list of (address, hash) pairs whose pairwise top differing bit is within the supported range, merkleize terminates and returns the root of the compressed binary trie over the addresses (pairs combined left=0/right=1).", "quantifier": "all sorted lists", "why_tests_cant": "All list lengths and address patterns.", "anchors": ["sdk/src/common/merkle.rs:merkleize", "sdk/src/common/merkle.rs:merkleize_step"]}
{"id": "C41", "title": "merkleize terminates on every input", "statement": "merkleize returns for every list of (address, hash) pairs.", "quantifier": "all lists", "why_tests_cant": "Non-termination on specific address patterns.", "anchors": ["sdk/src/common/merkle.rs:merkleize"]}
{"id": "C42", "title": "The canonical event order and its temporal hints are mutually inverse", "statement": "The canonical event list is a sorted permutation of the emitted events and the temporal hints are the inverse permutation: the i-th emitted event is found at its hinted canonical position.", "quantifier": "all event sequences, including duplicates", "why_tests_cant": "All permutations with duplicates.", "anchors": ["sdk/src/native/eventtape.rs:get_canonical_ordering", "sdk/src/native/eventtape.rs:get_canonical_order_temporal_hints"]}
{"id": "C43", "title": "The in-VM event tape accepts exactly re-orderings recorded natively", "statement": "A program that emits, in order, the natively recorded events passes every check; conversely if a program emits events and shuts down cleanly, the multiset of emitted events equals the events on the tape.", "quantifier": "all tapes, all emission sequences", "why_tests_cant": "All tapes supplied by an adversarial prover.", "anchors": ["sdk/src/mozakvm/eventtape.rs:emit", "sdk/src/common/system.rs:ensure_clean_shutdown"]}
{"id": "C44", "title": "The in-VM call tape check is sound and natively recorded tapes pass it", "statement": "A program's accepted sequence of sends/receives visits the tape's messages in order without skipping any in which it takes part; every accepted send matches the recorded caller, callee, argument and returns the recorded value; all parties are in the cast list.", "quantifier": "all tapes, all call sequences", "why_tests_cant": "All adversarial tapes.", "anchors": ["sdk/src/mozakvm/calltape.rs:send", "sdk/src/mozakvm/calltape.rs:receive", "sdk/src/native/calltape.rs:send"]}
{"id": "C45", "title": "Reading the in-VM input tapes delivers the tape in order", "statement": "Successive reads deliver the tape bytes in order and seeking repositions as in std::io::Seek.", "quantifier": "all sequences of reads and seeks", "why_tests_cant": "All histories.", "anchors": ["sdk/src/mozakvm/inputtape.rs:read", "sdk/src/mozakvm/inputtape.rs:seek"]}
{"id": "C46", "title": "Hash padding is injective", "statement": "Two byte strings with the same padded form are equal, the padded length is a multiple of 8 and strictly larger than the input.", "quantifier": "all byte strings", "why_tests_cant": "All lengths and contents, including trailing zeros.", "anchors": ["sdk/src/native/poseidon.rs:poseidon2_hash_with_pad", "sdk/src/mozakvm/poseidon.rs"]}
{"id": "C47", "title": "Identifiers and digests round-trip through their encodings", "statement": "Digest <-> four little-endian 64-bit words, address <-> 8 bytes round trip in both directions.", "quantifier": "all values", "why_tests_cant": "All 2^256 values.", "anchors": ["sdk/src/common/types/poseidon2hash.rs", "sdk/src/common/types/state_object.rs", "sdk/src/common/types/state_address.rs"]}
{"id": "C48", "title": "The bump allocator never hands out overlapping or misaligned memory", "statement": "Over any sequence of allocations the returned ranges are pairwise disjoint, increasing and aligned as requested.", "quantifier": "all sequences of (size, alignment) requests", "why_tests_cant": "All histories.", "anchors": ["sdk/src/core/alloc.rs:alloc"]}
{"id": "C49", "title": "The native caller identity stack brackets calls", "statement": "During native execution each nested call sees itself on top of the identity stack and after it returns the stack is as before; the recorded call tape lists calls in call order (pre-order) with the value each call returned.", "quantifier": "all call trees", "why_tests_cant": "All nesting shapes.", "anchors": ["sdk/src/native/identity.rs", "sdk/src/native/calltape.rs:send"]}
{"id": "C50", "title": "Address paths enumerate address bits from the most significant", "statement": "The path of an address yields its bits MSB first, after exactly height steps, and determines the address.", "quantifier": "all addresses, all heights", "why_tests_cant": "All addresses.", "anchors": ["node/src/block_proposer.rs:AddressPath"]}
{"id": "C51", "title": "Branch addresses form the prefix tree of addresses", "statement": "Parent and child are inverse, the common ancestor of two branches is the lowest branch containing both, and comparison reports containment and side correctly.", "quantifier": "all pairs of branch addresses", "why_tests_cant": "All pairs.", "anchors": ["node/src/block_proposer.rs:BranchAddress"]}
{"id": "C52", "title": "Tree reduction preserves order and uses every leaf once", "statement": "Reducing a non-empty list pairwise yields a binary tree whose in-order leaves are the list; for an associative operation it equals the left fold.", "quantifier": "all lists, all merge operations", "why_tests_cant": "All lengths.", "anchors": ["node/src/block_proposer.rs:reduce_tree"]}
{"id": "C53", "title": "Reducing by address groups events per address and matches merkleize's shape", "statement": "Reducing an address-sorted list uses every item exactly once in order, combines equal addresses first, then siblings, and yields the address-trie shape.", "quantifier": "all sorted lists", "why_tests_cant": "All lists.", "anchors": ["node/src/block_proposer.rs:reduce_tree_by_address"]}
{"id": "C54", "title": "The state tree behaves like a map from addresses to objects", "statement": "Whatever history of reads, upserts, deletes and finalizations is applied to an empty state tree, it is accepted exactly when a plain map accepts it (addresses in range; within a block all operations on an address that ask for a value ask for the same one, except that on an absent address first read, operations before the first upsert do not count), and then every address reports the value before the block and the current value of the map.", "quantifier": "all tree depths, all histories of operations and finalizations, all addresses", "why_tests_cant": "All histories.", "anchors": ["node/src/block_proposer/state.rs:apply_operation", "node/src/block_proposer/state.rs:get_state"]}
{"id": "C55", "title": "Finalizing a block keeps exactly the surviving objects", "statement": "Finalizing after any accepted history never fails; afterwards the tree's leaves are exactly the addresses whose new value exists, in increasing order, each reading its new value as both old and new, absent addresses read as absent, and no empty branch remains below the root.", "quantifier": "all operation sequences", "why_tests_cant": "All histories.", "anchors": ["node/src/block_proposer/state.rs:finalize"]}
{"id": "C56", "title": "Merging event trees keeps every event exactly once in address order", "statement": "A program's event tree holds exactly its events in their order of address; merging two such trees returns an address-ordered tree whose events are exactly those of both inputs, each input keeping its order, and the merge proof is about the roots of the inputs and of the result. (Merging fails for some inputs: three events on one address, trees in different halves of the address space.)", "quantifier": "all event lists, all pairs of trees, all hash functions", "why_tests_cant": "All tree shapes.", "anchors": ["node/src/block_proposer/transactions.rs:merge_events", "node/src/block_proposer/transactions.rs:ingest_program", "node/src/block_proposer.rs:reduce_tree_by_address"]}
{"id": "C57", "title": "The root proof of the state tree states the roots of the map and the summary of the touched addresses", "statement": "After any accepted history, the public inputs of the root proof are the Merkle roots of the whole address space before and after the block and the contracted summary of one observation per address touched in the block. (Fails after a block that leaves a touched address absent.)", "quantifier": "all tree depths, all histories, all hash functions", "why_tests_cant": "Ranges over every history and tree shape; a stale branch proof only shows after particular sequences.", "anchors": ["node/src/block_proposer/state.rs:recalc_branch_helper", "node/src/block_proposer/state.rs:finalize_branch", "recproofs/src/circuits/state_update.rs"]}
{"id": "C58", "title": "A transaction completes whatever the order in which its programs arrive", "statement": "For every cast list and every order in which the programs of its members are ingested, each exactly once, every call is accepted, only the last one completes the transaction, and the result combines the programs in cast order; a program ingested twice is refused. (Holds only for lengths 2^b-2^m+1.)", "quantifier": "all cast list lengths, all orders of ingestion", "why_tests_cant": "Ranges over all lengths and all permutations.", "anchors": ["node/src/block_proposer/transactions.rs:ingest_program", "node/src/block_proposer/transactions.rs:insert_program_helper", "node/src/block_proposer.rs:AddressPath"]}
{"id": "C59", "title": "The proposer and the programs agree on the cast root", "statement": "For every non-empty cast list, the cast root under which the block proposer files a transaction equals the cast-list digest the programs commit to.", "quantifier": "all cast lists of any length", "why_tests_cant": "Ranges over lists of every length; the two sides use different algorithms.", "anchors": ["node/src/block_proposer.rs:reduce_tree", "node/src/block_proposer/transactions.rs:ingest_program", "sdk/src/common/system.rs:ensure_clean_shutdown", "sdk/src/common/merkle.rs:merkleize"]}
{"id": "C60", "title": "Address verification pins every present leaf to its position", "statement": "In any tree of proofs satisfying the address constraints whose root has address 0, every present leaf's address equals its position in the tree.", "quantifier": "all trees of all heights, all field assignments", "why_tests_cant": "Adversarial witnesses and unbounded height.", "anchors": ["recproofs/src/subcircuits/verify_address.rs"]}
{"id": "C61", "title": "Summary trees commit to exactly the present leaves", "statement": "In any tree satisfying the summary constraints, the root is present iff some leaf is, and its hash is that of the tree with absent leaves contracted.", "quantifier": "all trees", "why_tests_cant": "Unbounded trees, adversarial witnesses.", "anchors": ["recproofs/src/subcircuits/summarized.rs"]}
{"id": "C62", "title": "Unpruned trees commit to all leaves", "statement": "In any tree satisfying the unpruned constraints the root hash is the Merkle root of the leaves' hashes, and under collision resistance equal roots of equal shape imply equal leaves; with byte-wise hashing too, equal roots of equal shape imply equal leaves and the native byte-wise root of any full list of leaves has a proof tree.", "quantifier": "all trees", "why_tests_cant": "Unbounded trees.", "anchors": ["recproofs/src/subcircuits/unpruned.rs"]}
{"id": "C63", "title": "Merge proofs prove interleavings", "statement": "If a merge proof verifies for roots (a, b, merged), there are leaf sequences such that merged is an order preserving interleaving of those committed to by a and b, nothing dropped, nothing added.", "quantifier": "all merge trees", "why_tests_cant": "Unbounded trees, adversarial witnesses.", "anchors": ["recproofs/src/circuits/merge.rs"]}
{"id": "C64", "title": "Accumulated deltas are the combined effect of the events", "statement": "The accumulated delta of any tree of events has each write/give/take flag set iff some event of that kind occurs (and at most one does), ensures/reads iff at least one occurs, and the summed credit delta; data and owners agree among the events that constrain them.", "quantifier": "all event trees, adversarial witnesses", "why_tests_cant": "Unbounded trees.", "anchors": ["recproofs/src/circuits/accumulate_delta.rs"]}
{"id": "C65", "title": "A matched delta only allows authorised state changes", "statement": "If a match proof verifies, the object's owner changes only with both a give by the old and a take by the new owner, data changes only by a write by the owner, credits change by the total delta, and last-updated is the block height iff something changed.", "quantifier": "all event trees and objects, adversarial witnesses", "why_tests_cant": "Adversarial witnesses.", "anchors": ["recproofs/src/circuits/match_delta.rs"]}
{"id": "C66", "title": "State updates change only summarized leaves", "statement": "In any verified state update tree every leaf at which old and new differ is in the summary at the correct address and old/new roots are the Merkle roots of the old/new leaves.", "quantifier": "all trees, adversarial witnesses", "why_tests_cant": "Unbounded trees.", "anchors": ["recproofs/src/circuits/state_update.rs"]}
{"id": "C67", "title": "A block proof certifies an unbroken chain of state transitions from genesis", "statement": "Any verifying block proof at height h implies a chain of h blocks from the base state root, each with matching events and state updates.", "quantifier": "all heights, all proof trees", "why_tests_cant": "Unbounded recursion.", "anchors": ["recproofs/src/circuits/verify_block.rs"]}
{"id": "C68", "title": "The Merkle root determines the leaves", "statement": "Two event or cast lists with the same root have the same leaves in the same order, unless the two-to-one hash collides on two of the pairs hashed for them.", "quantifier": "all pairs of leaf lists", "why_tests_cant": "Ranges over all pairs of lists of any length.", "anchors": ["sdk/src/common/merkle.rs:merkleize"]}
{"id": "C69", "title": "A byte-wise hash inside a proof is the hash of the canonical bytes", "statement": "In any satisfied byte-wise hashing gadget the digest is the hash of the eight little-endian bytes of each element's canonical value, as the native code computes it.", "quantifier": "all lists of field elements, all witnesses", "why_tests_cant": "Adversarial witnesses for the byte decomposition.", "anchors": ["recproofs/src/lib.rs:byte_wise_hash", "recproofs/src/lib.rs:split_bytes"]}
{"id": "C70", "title": "An accepted unbounded proof certifies a whole tree of proofs", "statement": "If a verifier accepts a proof of an unbounded (cyclic) branch circuit, there is a finite tree of leaf and branch instances satisfying the leaf and branch constraints with these public inputs at its root.", "quantifier": "all accepted proofs, all prover strategies including proofs of other circuits of the same shape", "why_tests_cant": "Unbounded recursion and adversarial provers.", "anchors": ["recproofs/src/circuits/merge.rs", "recproofs/src/circuits/accumulate_delta.rs", "recproofs/src/circuits/match_delta.rs", "recproofs/src/subcircuits/unbounded.rs", "recproofs/src/lib.rs:dummy_circuit"]}
{"id": "C71", "title": "Only the owner of an object can write it, debit it or give it away", "statement": "If a match proof verifies, the events that write the object's data, take credits from it or give it away name the object's current owner as their emitter.", "quantifier": "all event trees and objects, adversarial witnesses", "why_tests_cant": "Adversarial witnesses.", "anchors": ["recproofs/src/circuits/match_delta.rs", "recproofs/src/circuits/accumulate_delta/core.rs"]}
{"id": "C72", "title": "Ensure events are enforced", "statement": "If a match proof verifies for events with an ensure event on an object, the object's data after the block are the ensured data.", "quantifier": "all event trees and objects, adversarial witnesses", "why_tests_cant": "Adversarial witnesses.", "anchors": ["recproofs/src/circuits/match_delta.rs", "recproofs/src/circuits/accumulate_delta/core.rs"]}
{"id": "C73", "title": "A program's events reach the block unaltered", "statement": "An event-root proof ties the VM's commitment of a program's events to the commitment the block circuits use: both are to the same nonempty list of events, all owned by the public owner; for a given VM commitment and owner the list is determined, so no event can be dropped, added, reordered or altered in between; and every tree of events of one owner has such a proof.", "quantifier": "all event lists, tree shapes (with partial branches), owners, and hash functions without collisions among the inputs hashed", "why_tests_cant": "ranges over all proofs an untrusted prover could make, not just honestly generated ones", "anchors": ["recproofs/src/circuits/build_event_root.rs: LeafCircuit, BranchCircuit"]}
{"id": "C74", "title": "A program leaf proof stands for the program it names", "statement": "A program leaf proof for a program id certifies that the circuit belonging to this program id accepted: the events, call list and cast root are those of a run of that program.", "quantifier": "all program ids, program circuits, events, call lists and cast roots", "why_tests_cant": "concerns proofs by circuits that no test would construct", "anchors": ["recproofs/src/circuits/verify_program.rs: LeafCircuit", "recproofs/src/circuits/verify_program/core.rs: ProgramVerifierTargets::build_targets"]}
{"id": "C75", "title": "A transaction proof covers all its programs and their events", "statement": "A transaction proof certifies a nonempty list of transactions; the programs of each agree on one call list and one cast root, which is the Merkle root of the list of exactly these programs' ids; the proof's events are an interleaving of all events of all these programs, in each program's order, each owned by its program; a cast root fits one list of ids only.", "quantifier": "all trees of program and transaction proofs, all merges of event trees, all program circuits, hash functions without collisions among the inputs hashed", "why_tests_cant": "unbounded tree shapes and adversarial provers", "anchors": ["recproofs/src/circuits/verify_program.rs: BranchCircuit", "recproofs/src/circuits/verify_tx.rs: LeafCircuit, BranchCircuit", "recproofs/src/circuits/verify_tx/core.rs"]}
{"id": "C76", "title": "A commitment to events determines the events", "statement": "The commitment hashes, for every event, a fixed 48-byte encoding of its type, address and data hash; two non-empty sequences of emitted events with the same commitment contain the same events the same number of times, unless the hash function collides on two of the byte strings actually hashed.", "quantifier": "all pairs of event lists of any length, both build profiles, any hash function", "why_tests_cant": "Ranges over all pairs of lists.", "anchors": ["sdk/src/common/types/event.rs:CanonicalEvent::canonical_hash", "sdk/src/common/merkle.rs:merkleize", "sdk/src/native/eventtape.rs:canonical_hash"]}
{"id": "C77", "title": "A clean shutdown certifies what the program did", "statement": "Whatever tapes a program is supplied with, if none of its calls and events is refused and it shuts down cleanly with the claimed commitments, then every message addressed to it was processed and its observations are the messages it takes part in, in order; the events on the tape are exactly the emitted ones; the claimed event commitment is the root over these events and the claimed cast commitment is the root over the strictly increasing list of callees.", "quantifier": "all call tapes, event tapes, programs (sequences of API uses and events), claimed commitments and hash functions", "why_tests_cant": "tapes and claims are supplied by an untrusted prover; tests can only try honest ones", "anchors": ["sdk/src/common/system.rs: ensure_clean_shutdown, populate_call_tape", "sdk/src/mozakvm/calltape.rs: CallTape", "sdk/src/mozakvm/eventtape.rs: EventTape::emit"]}
{"id": "C78", "title": "A block’s transaction proof covers exactly the events of its completed transactions", "statement": "After any history of ingesting programs for any number of concurrent transactions and finalizing blocks, finalize reports an error if no transaction was completed since the last block, and otherwise a proof whose event root is the root of an address-ordered tree holding exactly the events of the programs of the transactions completed since the last block, each as often as passed in and each program’s in their order; a transaction is reported complete exactly when as many programs were accepted for it as its cast list has members; transactions do not affect each other.", "quantifier": "all histories of ingest_program and finalize calls, cast lists, event lists and hash functions", "why_tests_cant": "the number of interleavings of concurrent transactions and event trees is unbounded", "anchors": ["node/src/block_proposer/transactions.rs: TransactionAccumulator::ingest_program, finalize, merge_events_branch, merge_maybe_events"]}
{"id": "C79", "title": "A block changes the state only by the events of its transactions", "statement": "If the transaction, match and state-update proofs of a block are accepted, there is a nonempty list of transactions such that every event of every program in them is applied to the object at its address, none is lost or invented and each program's order is kept; each touched object changes by the rules (owner only by give and take, data only by a write, credits by the credit events, update height); all other objects stay; every change of owner has a give by a program whose id is the old owner and a take by one whose id is the new owner.", "quantifier": "all block proofs, transactions, state trees of up to 2^63 objects, program circuits, hash functions without collisions among the inputs hashed", "why_tests_cant": "end-to-end claim about arbitrary proofs of four interacting circuits", "anchors": ["recproofs/src/circuits/verify_block/core.rs", "recproofs/src/circuits/match_delta.rs", "recproofs/src/circuits/state_update.rs", "recproofs/src/circuits/accumulate_delta.rs", "recproofs/src/circuits/verify_tx.rs"]}
{"id": "C80", "title": "An object's history along the chain", "statement": "An accepted block proof of height N certifies a history of N blocks from a state with the base root to one with the state root. Along every history an object stays with its owner until a program with the owner's id emits a give on it; its data stay until some program emits a write on it; its credits are the initial ones plus all credit events on it (in the field).", "quantifier": "all chains of blocks of any length, all objects, positions and heights", "why_tests_cant": "induction over unboundedly many blocks", "anchors": ["recproofs/src/circuits/verify_block.rs", "recproofs/src/circuits/verify_block/core.rs", "recproofs/src/circuits/match_delta/core.rs"]}
{"id": "C81", "title": "A proved hash call stores the Poseidon2 hash of the message in memory", "statement": "In a proof that the verifier accepts, every hash system call stores at the output address in a3 the 32 canonical little-endian bytes of the Poseidon2 sponge over the a2 bytes loaded from a1, and nothing else is stored through the hash tables; and for every run the tables that the prover generates for its hash calls are accepted.", "quantifier": "all permutation, sponge and digest tables satisfying the constraints and each other's lookups; all runs, messages, addresses and round constants", "why_tests_cant": "It quantifies over tables chosen by a dishonest prover; tests only prove and verify the tables the honest generator produces. (It is false of this code: the S-box helper columns are unconstrained.)", "anchors": ["circuits/src/poseidon2/stark.rs: generate_constraints, sbox_p", "circuits/src/poseidon2/generation.rs", "circuits/src/poseidon2_sponge/stark.rs: generate_constraints", "circuits/src/poseidon2_sponge/generation.rs", "circuits/src/poseidon2_output_bytes/stark.rs: generate_constraints", "runner/src/poseidon2.rs"]}
{"id": "C82", "title": "The public commitments of a proof are the commitments the program read", "statement": "In a proof that the verifier accepts, the 32 public values for the events (cast list) commitment are, in order, the bytes every read of that commitment tape delivers to the program; and for every run the generated commitments table is accepted and publishes the two tapes.", "quantifier": "all commitments and tape tables satisfying constraints and lookups, all public values, challenges and ways to derive them, all runs", "why_tests_cant": "It quantifies over public values and tables chosen by a dishonest prover, also after the challenges are known, and over all runs. (It is false of this code: the public values are not part of the transcript and their order is not checked.)", "anchors": ["circuits/src/tape_commitments/stark.rs: generate_constraints", "circuits/src/tape_commitments/columns.rs", "circuits/src/tape_commitments/generation.rs", "circuits/src/public_sub_table.rs", "circuits/src/cross_table_lookup.rs: verify_cross_table_lookups_and_public_sub_tables", "circuits/src/stark/proof.rs: AllProof::get_challenges"]}
{"id": "C83", "title": "Every execution has an accepted memory table that records all its memory accesses", "statement": "For every execution, the memory table that the prover generates holds, for each address in ascending order, its initial value and then every load and store of the run at that address, in order, with the values the runner saw, and nothing else; it satisfies the constraints and range checks of the memory table, the tables it is built from satisfy theirs, and the lookups between the memory table and its sources (program memory, zero-initialised memory, CPU, half words, full words, tapes, hash inputs and outputs) balance.", "quantifier": "all programs, input tapes and executions, all iteration orders of the program's memory maps, all paddings", "why_tests_cant": "It quantifies over all executions; tests prove a handful of programs. (It is false of this code when a digest wraps around the end of the address space or segments overlap.)", "anchors": ["circuits/src/memory/generation.rs: generate_memory_trace", "circuits/src/memory/columns.rs", "circuits/src/memory_halfword/generation.rs", "circuits/src/memory_fullword/generation.rs", "circuits/src/memoryinit/generation.rs", "circuits/src/memory_zeroinit/generation.rs", "circuits/src/memory/stark.rs", "circuits/src/stark/mozak_stark.rs: IntoMemoryTable, MemoryInitMemoryTable"]}
{"id": "C84", "title": "Every execution has accepted register tables that record all its register accesses", "statement": "For every execution of a decoded program, the register table that the prover generates holds, for each register from 1 to 31, its initial value and then every read and write of the run, in order, with the values the runner saw, ending with the final value; accesses to x0 are in two tables of their own; nothing else is in them. The table satisfies the constraints and range checks, and the register lookups of all other tables (CPU, ADD, taken branches, tapes, hash calls, initial values) balance against these three tables. (Runs of fewer than 2^31 steps.)", "quantifier": "all programs, inputs and runs; all amounts of padding", "why_tests_cant": "Holds for every run of every program; the table is produced by extraction from 17 lookup columns, a sort and a partition over the whole run.", "anchors": ["circuits/src/register/generation.rs:generate_register_trace", "circuits/src/register/generation.rs:sort_into_address_blocks", "circuits/src/stark/mozak_stark.rs:RegisterLookups", "circuits/src/register/general/stark.rs"]}
{"id": "C85", "title": "Every successful execution can be proved", "statement": "For every program and all tapes for which the runner completes, generating the traces does not panic; the thirty generated tables satisfy all their constraints with the program's entry point as public input; all eighteen cross-table lookups between them balance, so that the verifier accepts the prover's running sums for every challenge that makes no combined row vanish; the public values are the run's two commitments; and every table has a power of two of rows, at least eight, as the proof system requires.", "quantifier": "all programs, tapes and complete runs; all challenges", "why_tests_cant": "Holds for every run of every program; a prover test runs a handful of fixed programs, and each proof takes seconds.", "anchors": ["circuits/src/generation.rs:generate_traces", "circuits/src/stark/mozak_stark.rs:MozakStark::default", "circuits/src/cpu/generation.rs:generate_program_mult_trace", "circuits/src/program/generation.rs", "circuits/src/rangecheck/generation.rs:generate_rangecheck_trace", "circuits/src/rangecheck_u8/generation.rs", "circuits/src/xor/generation.rs", "circuits/src/bitshift/generation.rs", "circuits/src/utils.rs:pad_trace_with_row", "circuits/src/stark/prover.rs"]}
{"id": "C86", "title": "Shrinking a recursive proof reaches any reachable target degree", "statement": "Shrinking a valid proof to a target degree wraps it in verifier circuits until the degree is the target: it succeeds whenever some number of wraps reaches the target with falling degrees, and then returns a proof valid for the returned circuit with the public inputs of the given one; a proof of another circuit is refused.", "quantifier": "all circuits, target degrees and proofs", "why_tests_cant": "Building a circuit and its proof takes seconds to minutes, so tests shrink one circuit to one degree; the claim is about every chain of degrees.", "anchors": ["circuits/src/stark/recursive_verifier.rs:shrink_to_target_degree_bits_circuit", "circuits/src/stark/recursive_verifier.rs:PlonkWrapperCircuit"]}
{"id": "C87", "title": "The program id identifies the program", "statement": "The program id the CLI computes depends only on the program, not on the iteration order of its hash maps; two programs with the same id have the same entry point, the same initial read-only and writable memory and the same instruction at every address; and two proofs the verifier accepts with the same program id have the same entry point and the same commitments of the program and initial memory tables (the hash and the commitments being collision free on what they are applied to).", "quantifier": "all programs, all iteration orders, all proofs", "why_tests_cant": "Ranges over all pairs of programs and all map orders; a test compares a few ids.", "anchors": ["cli/src/runner.rs:get_self_prog_id", "cli/src/trace_utils.rs:get_trace_merkle_cap", "circuits/src/stark/prover.rs:get_program_id", "circuits/src/stark/verifier.rs:verify_proof", "circuits/src/stark/batch_verifier.rs", "circuits/src/program/columns.rs", "circuits/src/program/generation.rs", "circuits/src/memoryinit/generation.rs"]}
{"id": "C88", "title": "The program id in a recursive VM proof is the program's id", "statement": "The 32 program id bytes in the public inputs of the recursive verifier circuit are the bytes of the program id of the verified proof: the circuit has a satisfying assignment with that id, with no other, and two proofs with the same exposed id have the same entry point and table commitments.", "quantifier": "all proofs, all satisfying assignments of the byte-splitting gadget", "why_tests_cant": "The witness generator always picks the canonical bytes, so no test that runs the prover sees any other satisfying assignment.", "anchors": ["circuits/src/stark/recursive_verifier.rs:get_program_hash_circuit_bytes", "circuits/src/stark/recursive_verifier.rs:hash_trace_cap_circuit", "circuits/src/stark/recursive_verifier.rs:VMRecursiveProofPublicInputs"]}
{"id": "C89", "title": "A table's polynomial check stands for its constraints on every row", "statement": "If some row of a table violates one of its constraints, or a committed running sum is not that of its lookup, then except for fewer values of the constraint challenge than there are constraints, whatever quotients are committed to, the verifier's check of that table holds for at most three times as many evaluation points as the table has rows. If every constraint holds, the prover's quotients pass the check at every evaluation point other than the two at which the verifier divides by zero.", "quantifier": "all tables (any constraints of the declared degree), all row counts, all traces, challenges, quotients and evaluation points", "why_tests_cant": "The claim is about all challenges and all quotient polynomials an adversary could commit to.", "anchors": ["circuits/src/stark/verifier.rs:verify_quotient_polynomials", "circuits/src/stark/verifier.rs:eval_l_0_and_l_last", "circuits/src/stark/poly.rs:eval_vanishing_poly", "circuits/src/stark/poly.rs:compute_quotient_polys", "circuits/src/stark/prover.rs:prove_single_table", "circuits/src/cross_table_lookup.rs:eval_cross_table_lookup_checks"]}
{"id": "C90", "title": "The declared constraint degree covers every constraint", "statement": "Every constraint of every table is a polynomial in the columns of a row and its successor whose degree, counting the first-row and last-row selectors, is at most the constraint degree 3 the table declares; so an honest trace never makes the prover fail for too high a degree.", "quantifier": "all constraints of all seventeen tables with constraints", "why_tests_cant": "A test samples the degree at one random trace and table size, per table.", "anchors": ["circuits/src/cpu/stark.rs:constraint_degree", "circuits/src/poseidon2/stark.rs:generate_constraints", "circuits/src/poseidon2_sponge/stark.rs:generate_constraints", "circuits/src/memory/stark.rs:generate_constraints", "circuits/src/storage_device/stark.rs:generate_constraints", "circuits/src/xor/stark.rs:generate_constraints"]}
{"id": "C91", "title": "Each running-sum opening is checked for the lookup and challenge it was made for", "statement": "For every list of cross-table lookups and public sub tables, every number of challenges and every proof: the verifier uses each opening of a table's running sums exactly once, and for the same challenge and the same lookup (or public sub table) for which the prover made the running sum in that place; its final check accepts exactly if under every challenge the sums of exactly the tables of every lookup cancel and every public sub table's values reduce, under that challenge, to that sub table's own sum. The recursive verifier does the same.", "quantifier": "all lists of lookups (any tables, a table any number of times, in any order), all lists of public sub tables, all numbers of challenges, all openings and public values", "why_tests_cant": "The order in which openings are handed out is a matter of iteration order over nested lists; the repository's tests only run the fixed list of lookups, and a mix-up between two lookups of equal sums or a wrong challenge does not make an honest proof fail in a visible way.", "anchors": ["circuits/src/cross_table_lookup.rs: cross_table_lookup_data, CtlCheckVars::from_proofs, CtlCheckVarsTarget::from_proof, verify_cross_table_lookups_and_public_sub_tables, num_ctl_zs", "circuits/src/public_sub_table.rs: public_sub_table_data_and_values, reduce_public_sub_tables_values, public_sub_table_values_and_reduced_targets, num_zs", "circuits/src/stark/verifier.rs: verify_proof, validate_proof_shape"]}
{"id": "C92", "title": "The hash permutation is a permutation with Poseidon2's linear layers", "statement": "For all round constants, numbers of rounds and states: the external linear layer computed by the optimised additions multiplies the state by Poseidon2's circulant block matrix circ(2 M4, M4, M4), the internal layer by the matrix with the given diagonal and ones elsewhere, and if the internal layer is invertible the whole permutation maps different inputs to different outputs.", "quantifier": "all 12-element states over the Goldilocks field, all constants, all numbers of full and partial rounds", "why_tests_cant": "There are p^12 states; a test compares a few vectors, and a linear layer that agreed with the reference on those vectors could still merge states.", "anchors": ["circuits/src/poseidon2/stark.rs: matmul_m4, matmul_external12, matmul_internal12, sbox_p, add_rc", "circuits/src/poseidon2/generation.rs: generate_1st_full_round_state, generate_partial_round_state, generate_2st_full_round_state"]}
{"id": "C93", "title": "The batch prover and verifier find every table's polynomials in their places", "statement": "For every choice of public tables, all table sizes and all numbers of polynomials per table: in each of the three shared oracles, the slices that the batch prover opens and reads for a table are exactly that table's polynomials in order, in the list of polynomials as well as in the Merkle layer of its degree; the degrees the batch goes through are exactly those of its tables, each once, falling; merging the per-table FRI instances hits no assertion and counts each polynomial of the oracles once; and the opened values the verifier strings together for each degree and point are, place by place, values of the polynomials to which the merged instance refers.", "quantifier": "all lists of tables and public tables, all table sizes (any ties), all numbers of polynomials, all evaluation points", "why_tests_cant": "The order depends on which of the thirty tables have equal sizes; tests run a few programs, whose tables have a few size patterns.", "anchors": ["circuits/src/stark/batch_prover.rs: sort_degree_bits, BatchFriOracleIndices::new, batch_fri_instances, merge_fri_instances, batch_prove_with_commitments", "circuits/src/stark/batch_verifier.rs: batch_verify_proof", "circuits/src/stark/proof.rs: batch_new, to_fri_openings"]}
{"id": "C94", "title": "Batch verification enforces the constraints of every table in the batch", "statement": "If some row of a table that is not public violates one of its constraints then, as for tables proved singly (C89), for all but a few values of the constraint challenge and whatever quotient polynomials are committed to, the batch verifier's check of that table's constraints together with the check of the openings succeeds at only a few evaluation points.", "quantifier": "all tables, traces, challenges, quotients, claimed openings and evaluation points", "why_tests_cant": "The claim is about all claimed openings an adversary could put into a proof, including ones of the wrong shape.", "anchors": ["circuits/src/stark/batch_verifier.rs: batch_verify_proof", "circuits/src/stark/verifier.rs: verify_quotient_polynomials, validate_proof_shape"]}
{"id": "C95", "title": "The batch verifier derives the prover's lookup challenges", "statement": "For every list of public tables (each at most once), batch prover and batch verifier show the same commitments in the same order to the challenger before the lookup challenges are drawn, so that an honest proof is checked with the prover's challenges.", "quantifier": "all lists of public tables in any order, all commitments", "why_tests_cant": "Tests always pass the same constant list of two tables.", "anchors": ["circuits/src/stark/batch_prover.rs: batch_prove", "circuits/src/stark/batch_verifier.rs: batch_verify_proof", "circuits/src/stark/mozak_stark.rs: PUBLIC_TABLE_KINDS, all_kind"]}
{"id": "C96", "title": "The batch FRI reduction stops at every table size and ends small", "statement": "For every falling list of table sizes and every rate and cap height: computing the reduction arities panics exactly if the smallest table is too small for the cap or the rate exceeds both the cap height and five; otherwise every reduction is by 1, 2 or 3 bits, the reduction comes to stand at every table size, and ends with a codeword at least as large as the cap and a final polynomial of at most max(cap height, 5) + 2 - rate bits.", "quantifier": "all lists of table sizes, all rates and cap heights", "why_tests_cant": "The arities are computed from the sizes of all tables of a run; tests see a few size patterns.", "anchors": ["circuits/src/stark/batch_prover.rs: batch_reduction_arity_bits"]}
{"id": "C97", "title": "A Poseidon signature shows knowledge of the private key of one public key", "statement": "For every list of public inputs: a satisfying assignment of the signature circuit exists exactly if the inputs are the 32 bytes of a public key and the 32 bytes of a message and some 32-byte private key hashes to the four 64-bit words of the public key; every private key can sign every message under the public key made from it; and no private key can sign under a second public key.", "quantifier": "all hash functions, private keys, public keys, messages and public inputs", "why_tests_cant": "A test signs with one key; the claim is about every assignment an adversary might find.", "anchors": ["signatures/src/zk_friendly/sig.rs: Signature::sign, PublicKey, PrivateKey, Message", "signatures/src/zk_friendly/poseidon.rs: hash_circuit, hash_private_key", "signatures/src/zk_friendly/utils.rs: get_hashout"]}
{"id": "C98", "title": "The public key of a SHA-256 or Keccak-256 signature is the digest, and the library's own public key works", "statement": "For all values of the digest's eight 32-bit words, the 32 limbs of the public key are forced to be the bytes of the digest in order; and a private key can always sign under the public key which the library itself makes from it.", "quantifier": "all digests, all values of the limbs", "why_tests_cant": "The failing digests are too rare for a test with a random key; the forced bytes are a claim about every assignment.", "anchors": ["signatures/src/zk_friendly/sha256.rs: hash_circuit, hash_private_key", "signatures/src/zk_friendly/keccak256.rs: hash_circuit, hash_private_key", "signatures/src/zk_friendly/utils.rs: biguint_le_u32_target_to_le_u8_target, biguint_be_u32_target_to_le_u8_target", "signatures/src/zk_friendly/sig.rs: From<HashOut> for PublicKey"]}
{"id": "C99", "title": "The counter example changes the counter by exactly one per call", "statement": "For every call tape, event tape and serialisation: the counter program completes exactly if every call to it comes from another program in the cast and asks to increase or decrease an object whose counter can move that way within 64 bits, the recorded answer is the same object with only the counter changed by one, and the events, for each call a read of the old and a write of the new object, are accepted by the event tape; correct calls recorded natively always complete.", "quantifier": "all call tapes, event tapes, objects and serialisations", "why_tests_cant": "All call histories and adversarial tapes.", "anchors": ["examples/counter/core-logic/src/lib.rs: dispatch, mutate_counter", "examples/counter/mozakvm/src/main.rs: main"]}
