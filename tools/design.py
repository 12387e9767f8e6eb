#!/usr/bin/env python3
"""Writes DESIGN.md: the text below, plus a table made from properties.jsonl and MANIFEST.json, plus the
axioms of each theorem of the manifest (from /tmp/ax.txt, the output of '#print axioms')."""
import json, re, os, collections
os.chdir(os.path.join(os.path.dirname(__file__), '..'))
P=[json.loads(l) for l in open('properties.jsonl')]
M={c['property']:c for c in json.load(open('MANIFEST.json'))['claims']}
TECH={}
def t(ids, how):
    for r in ids.split():
        a,_,b=r.partition('-')
        for n in range(int(a),int(b or a)+1): TECH['C%02d'%n]=how
t('1-6','`Array` over lists, `find_cut_at_size` as a right-to-left scan (Model/Array). One-step invariant and conservation as `List.Perm`, lifted to histories by induction')
t('7-9','`BTree` with its two indexes (sorted set of (value, key), sorted map) and its counter (Model/BTree). Invariant "both indexes hold the same pairs", refinement to a list of elements')
t('10','same model; refutation with a concrete batch, C07 is the positive part')
t('11 16 18 36 38','combinators as functions on `Block`s (Model/Combinators); each preserves the contract `Lawful`')
t('12','`get` of Exclusive as the code moves elements (Model/Get); case analysis on fill levels')
t('13','same; refutation, and an invariant "keys disjoint" for fresh histories')
t('14 15','`Inclusive` with the cloned/updated flags (Model/Inclusive); invariants on the flags; refutations')
t('17 65','loops of `Batch` over any number of batches; induction on the batches')
t('19','`Associative` over n sets and any hash; routing invariant')
t('20','`Associative.pop` as written; refutations and the branches that work')
t('21 22','64 bit masks as `Nat`/`BitVec` arithmetic (Model/Utils); bit lemmas, induction over chains')
t('23','`KMin` as a sorted list; invariant: a suffix of the sorted list of all that was pushed')
t('24 50','byte level `VecStream` and `IOVec` (Model/Stream); refinement to a list of values')
t('25-27','`ByteStream` over its size classes, down to bytes; refinement, refutations')
t('28-30 70','`Compressed`: bytes, sizes of headers, decoding (Model/Compressed); arithmetic invariant; refutations')
t('31 32 54','`RWLock` as a transition system of atomic steps, any number of threads, spurious failures (Model/Lock); inductive invariant over schedules')
t('33 34','reference counting by the lock (Model/Handles); invariant over interleaved clone/drop steps')
t('35 55','`Sequential` calls as interleaved try-lock steps, cells that keep the lock (Model/Sequential); invariant, linearisation; schedules that refute')
t('37','counters of `Profiler`; equality with a count over the history')
t('39 40 77','decorations with a clock (Model/Policies); invariant relating stamps or statistics to the history of uses')
t('41 71','scores as exact rationals; algebra; refutations')
t('42','the global counter as one atomic step per call; induction over the schedule')
t('43 44 57-59','bytes on the wire, client, server, reconnection (Model/Socket, Model/Server); simulation, invariants, refutations')
t('45 46 61 62 66','TOML values, validation and construction (Model/Config); structural induction, refutations')
t('47 53 63 64 72','syntax of nestings and its denotation (Model/Stack, Model/MapStack); structural induction with one theorem per building block')
t('48 49','accesses as functions on elements (Model/Get); direct')
t('51','`Exclusive` push and pop; case analysis')
t('52','Profiler over any container; exact cause of the underflow')
t('56','clones of a decorated container; refutation and a simulation by one handle')
t('60 78','builders and their configurations (Model/Builders); structural induction')
t('67','layers of hashers and sets (Model/Layers); counting argument')
t('68 69','BTree and Array accesses and evictions; exact conditions')
t('73','Profiler shared by threads: steps of the statistics lock interleaved with container calls (Model/ConcProfiler); invariant over schedules')
t('74','Associative shared by threads: programs of calls on sets, one atomic step each (Model/ConcAssoc); invariant, linearisation points, refutation')
t('75 76','Associative of Sequential: every lock operation of every set is a step (Model/ConcAssocSeq); simulation by the model of C74; refutations')
t('81 82','threads sharing a decorator, one step per decorated element (Model/ConcDecorator); invariant on stamps against call and return times; ghost list of records; refutation over all orders')
t('79 80','files with their open options (Model/FileBacked); simulation by the container in memory; invariant; refutation')
t('83 84 85 86 87','lookups whose cell is used any number of times (Model/Cells); ranking of stored elements by last lasting use as an invariant; concrete run for the refutation')
t('88 89 90','configuration types other than ConfigBuilder, texts as TOML values with i64 integers, as_config with its unwraps, SocketServerConfig (Model/ConfigText); on top of the proofs of C45, C60, C61 and C43')
t('91','Model/ConcStream: interleaving of the accesses of several threads to one Stream; invariants over runs of any length in Proofs/ConcStream; concrete runs for the refutations')
t('92-93','Stack.Tiered: Exclusive over Arrays to any depth; invariant by induction on the shape and on histories: each level is before the next in the order of values, except for an element just moved to the front (Proofs/Tiers); Ranked (Proofs/Policies) relates values and last uses')
t('94-95','textbook LRU and FIFO as lists of keys (Proofs/Recent); the container refines them, by induction on the requests, from the invariants of C92 and C83')
t('96','a memory as a function, write-back protocol, and the memory alone as specification; invariant: the container overrides the memory')
t('97','the caches of C94 and C95 for each set, on the requests for its keys; simulation set by set, the clock being shared or not')
t('98','the containers again with a record of machine operations (overflow panics, or wraps); equality with the model under a bound, by structural induction on the stack')
t('99','the lock again as the list of the values of its word (modification order), threads reading any value not older than what they know; happens-before defined on the trace; invariant: every access is published, still protected, or the lock is dead')
t('100','cells as values of their own (position or owned element), dropping a cell in two steps after the unlock; invariant on the lock and the threads: who holds a cell, and what it points to; schedules refuting the rest')
t('101','any nesting of building blocks with accesses: an inductive type of container types (Model/MapStack), exchange laws of each block (a full container gives one element for another of the same size), cell laws, induction on the shape and on the history (Props/MapGetProps)')
t('102','cells as copies: two containers, the one stored and the one it becomes once written cells are dropped; invariant that at most one thread has a written cell; schedules refuting the rest')
t('103','IEEE 754 binary32 on rationals (nearest, ties to even, subnormals, overflow); relative error of one operation, then induction on the uses, against the exact score with a perturbed exponent')
t('104','the operations of both streams with what they return; simulation for operations staying in the file, and for the vector of elements with a file open for reading')
t('105','each comparison takes two readings of the counter; invariant: the ordered set holds the cells from the newest to the oldest, so a search of a held cell stops at it or one before and never finds it')
t('106','the two provided methods of the trait on the streams of C50 and C104')
t('107','the size function is a parameter of the model, so changing it is running the same state with another one; the invariant holds for it if and only if the sizes agree')
t('108','the cell of the back level is a value kept during the write-back and released after it (Model/InclusiveHeld); weak invariant of C15, write-back has room for what it holds')
t('109','potential: how many pushes until the elements older than a given moment are gone; it goes down with each push in full Arrays')
t('110','the calls, their outcomes and times are inputs (Model/ProfilerTime); exact counters by induction on the history from its end')
t('111','invariant on the elements of both levels: the back holds, in order of arrival, what the textbook cache holds; copies in front are marked in the back and hold the value last written (Proofs/InclusiveCache)')
t('112','the last event of each thread in the history determines how it can hold the lock (Proofs/SeqWait); with the counting invariant of C35 a thread that cannot step has a holder; a measure bounds the steps')
t('113','each method is a computation that consumes one fate per place where user functions are called and leaves a state when it panics (Model/Unwind); it is the method of the other models when nothing panics (Proofs/Unwind), and induction on the assembly shows what each panic keeps (Proofs/UnwindKept)')
t('114','the contract of the calls allowed is carried by the container with take_multiple replaced by takes and flush by nothing (patch), which every combinator preserves because its other calls use only those of its parts (Proofs/StreamStack); induction on the nesting.')
t('115','refinement to a pair of lists of keys (spillStep: an LRU list over a list that only grows while there is room); the stamps of the cells are a function of the key, the last reading of the clock at which it was used (Proofs/Spill); the stream is used through an interface (Shelf) that it satisfies when all elements take the same room; the consequences are lists only.')
t('116','transition system of threads of a Sequential, some of which are server threads with a client; invariant relating the events so far with where each thread and its client are; the steps on the container are a run of Model/Sequential, so C35 applies; counterexamples by evaluation of a schedule')
t('117','each operation of a stream has a fate (success, error, short); the methods as computations that keep the state they leave however they end; induction over the loops and histories; counterexamples by evaluation')
t('118','Model/CompressedFaults: the methods of Compressed with their error paths, in the monad of Model/Faults; each call is compared with the model without failures, then induction over the history')
t('119','Model/StreamGet: get and get_mut of the nestings of Model/StreamStack; a law of accesses that may fail, preserved by every wrapper (Proofs/StreamGet), by induction over the nesting; then induction over the history')
t('120','Model/CellFaults: get, get_mut with the drop of its cell, take_multiple and flush in the monad of Model/Faults; each loop is compared with the model without failures; a frame property (searches do not use the fates of writes) for the theorems on failing writes')
t('121','Model/SeqUnwind: the outer lock, the poison flags and the cells of a Sequential over any container with panicking functions (Model/Unwind); an invariant of histories without serious panics, and invariants of what follows each kind of panic')
t('122','Model/CloneHeap: memory with pointers, copies and handles by recursion on the nesting; Proofs/CloneHeap: two values are apart (no common pointer) or the same; the invariant relates memory and handles to a list of independent containers')
t('123','Model/StoreUnwind: the methods of Stream and Compressed as computations in which user functions may panic; agreement with the models without panics, what a panic leaves for every point of every method, induction over histories')
t('124','Model/AccessUnwind: get and get_mut of the memory containers and the use of their cells as computations in which user functions may panic; agreement with the models without panics, a law (UseLaw) of what an access that panics leaves, by induction over nestings, then over histories')
t('125','Model/BTreeUnwind: the accesses of BTree as computations in which user functions may panic; agreement with the model without panics, exactly what each panic leaves, induction over histories')
t('126','Model/InclusiveUnwind: the accesses of Inclusive, and the copy from the back to the front, as computations in which user functions may panic; agreement with the model without panics, what each panic leaves, the invariant of C14')
t('127-200','see the module named in the claim')
s=open('tools/design_head.md').read()
rows=['| id | property | status | model and proof | theorems |','|----|----------|--------|-----------------|----------|']
for p in P:
    c=M[p['id']]
    ths=', '.join('`%s`'%x.replace('Byoc.','') for x in c['theorems'])
    st=c['status']
    if any(x.endswith('_false') for x in c['theorems']): st='false of the code; true part proved'
    rows.append('| %s | %s | %s | %s%s | %s |'%(p['id'],p['title'],st,TECH.get(p['id'],''),('. '+c['note']) if c['note'] else '',ths))
s=s.replace('@@TABLE@@','\n'.join(rows))
ax=open('/tmp/ax.txt').read().replace('\n ',' ')
g=collections.OrderedDict()
for l in ax.split('\n'):
    m=re.match(r"'(.*)' (?:depends on axioms: \[(.*)\]|does not depend.*)",l)
    if m: g.setdefault(m.group(2) or 'no axiom',[]).append(m.group(1).replace('Byoc.',''))
s=s.replace('@@AXIOMS@@','\n'.join('* **%s** (%d theorems)%s'%(k,len(v),(': '+', '.join('`%s`'%x for x in v)) if len(v)<80 else ': all the others of the table') for k,v in g.items()))
open('DESIGN.md','w').write(s)
print(len(s))
