{
 "insertion out of order": {
  "tightened": [
   "C20_print_depends_on_content_only",
   "C20_print_format"
  ],
  "remark": "Survived at first: C20 assumed sorted maps. It is now stated for every reachable state; this is the result of the second run."
 },
 "infinity counts as NaN": {
  "tightened": [
   "C12_equality_structural",
   "C13_copy_equal_iff_no_nan"
  ],
  "remark": "Survived at first: the specification used the model's own NaN test. Doubles are now specified by the number their bits encode (Spec/Ieee)."
 },
 "Run ends after one batch": {
  "breaks": [
   "C35"
  ],
  "remark": "First labelled C35 and C40; C40 (who holds a mutex when) is not concerned."
 },
 "DeleteSubscriber without the mutex": {
  "breaks": [
   "C31"
  ],
  "remark": "First labelled C41 too; a missing lock cannot cause a deadlock."
 },
 "publishing locks subscribers inside the queue mutex": {
  "breaks": [
   "C42"
  ],
  "remark": "First labelled C40 too, which is not concerned."
 },
 "names are not cut at NUL": {
  "breaks": [
   "C68"
  ],
  "tightened": [
   "C68_files_and_directories",
   "C68_nul_in_path"
  ],
  "remark": "First labelled C74, which is not concerned: paths from the system contain no NUL. But C68 and C60 used the model's own cut; they now use the separate untilNul and C68_nul_in_path was added."
 },
 "UnloadTemplates keeps the map": {
  "breaks": [
   "C61",
   "C78"
  ],
  "tightened": [
   "C61_unload_twice"
  ],
  "remark": "First labelled C59 too (PluginTemplate::Unload, not concerned). C61 did not say that the destructor's second UnloadTemplates closes nothing twice; C61_unload_twice was added."
 },
 "the bus of the configuration is ignored": {
  "breaks": [
   "C97"
  ],
  "tightened": [
   "C97_own_bus"
  ],
  "remark": "First labelled C57. No property said which bus an instance gets; C97 was added."
 },
 "working directory added twice (no property claims the search paths)": {
  "breaks": [
   "C96"
  ],
  "tightened": [
   "C96_search_order"
  ],
  "remark": "No property said which directories are searched; C96 was added."
 },
 "Teardown does not detach": {
  "breaks": [
   "C98"
  ],
  "tightened": [
   "C98_plugins_unload_silent"
  ],
  "remark": "First labelled C78, whose statement does not mention detaching; no property did, so C98 was added."
 },
 "Teardown keeps the root bus": {
  "breaks": [
   "C76",
   "C78"
  ],
  "tightened": [
   "C76_start_returns_once"
  ],
  "remark": "C76 was only stated for the process model; C76_start_returns_once states it for the host's own Start."
 },
 "an exception of a callback does not leave Start": {
  "breaks": [
   "C65"
  ],
  "remark": "First labelled C77, which is about exceptions from configuration files."
 },
 "the callback ignores the owner": {
  "breaks": [
   "C83"
  ],
  "remark": "First labelled C82, which is not concerned: Deinitialize takes the mutexes only after DeleteSubscriber has waited for the callback."
 },
 "IsStopped is true while running": {
  "breaks": [
   "C89"
  ],
  "remark": "First labelled C88 too, which is about what happens after a stop control."
 },
 "the event is not set": {
  "breaks": [
   "C88"
  ],
  "tightened": [
   "C88_acts"
  ],
  "remark": "C88 began where Init acts on the control; C88_acts adds that the control gets it there."
 },
 "publishing to a destroyed root is harmless": {
  "breaks": [],
  "remark": "No reachable state differs: a bus never forwards to a destroyed root (C100_orphan), so the mutated branch is not taken."
 },
 "publishing with code of a closed library is harmless": {
  "tightened": [
   "C102_publish"
  ],
  "remark": "Survived at first; C102_publish was added."
 },
 "slash as separator (Windows)": {
  "tightened": [
   "C95_combined",
   "C66_combined"
  ],
  "remark": "Survived at first (only examples failed), because the theorems use the separator of the model. C95_combined names the character; C66_combined does so for the other platforms."
 },
 "IsFile tests existence (Windows)": {
  "breaks": [],
  "remark": "The same function: of a path that does not exist the attributes are all ones, so IsFile is false anyway."
 },
 "name after a trailing backslash: the same result": {
  "remark": "The same function (substr of the length is empty); the proof script failed, not the statement."
 },
 "calling a registered callback of a closed library is harmless": {
  "tightened": [
   "C102_deliver"
  ],
  "remark": "At first only C103 failed; C102_deliver was added."
 },
 "every other index is tried": {
  "breaks": [
   "C57"
  ],
  "remark": "C97 was listed too, but does not speak of the index."
 },
 "an unknown type is undefined": {
  "breaks": [
   "C97"
  ],
  "remark": "C62 was listed too, but is about worker threads."
 },
 "the argument is ignored": {
  "tightened": [
   "C108_exit_iff",
   "C108_exception"
  ],
  "remark": "Survived at first: C108 was stated in terms of the model's own list of files. It is now stated in terms of the first argument; this is the result of the second run."
 },
 "nullptr does not convert to shared_ptr": {
  "remark": "Makes no claim false: with one candidate less the assignment of nullptr is still ambiguous (string and copy remain), so it still does not compile.",
  "breaks": []
 },
 "handles cannot be made from raw pointers": {
  "tightened": [
   "C114_declare_handle"
  ]
 },
 "assigning data keeps the list": {
  "breaks": [
   "C114",
   "C115"
  ],
  "remark": "The programs of C112 assign no data pointers; the edit shows in what is observed after such an assignment (C114, C115)."
 },
 "an unknown plugin is an invalid operation": {
  "breaks": [
   "C63"
  ],
  "remark": "C117 says which exceptions the handler of ReadConfigurationFile catches; which one InstantiatePlugin throws is the matter of C63."
 },
 "80 characters fit": {
  "breaks": [],
  "remark": "The claim is that the text handed on is cut off to fit; it does not fix the length below the size of the buffer, so it stays true."
 },
 "the callback writes the pointer": {
  "breaks": [],
  "remark": "Listing an access that does not happen keeps the list complete; the claim stays true."
 },
 "the event is not written": {
  "breaks": [],
  "remark": "The event handle is no part of the state of the model of the service, so completeness of the list of its writes cannot mention it."
 },
 "the counter is not counted as an access": {
  "tightened": [
   "C124_service_writes"
  ]
 },
 "clearing does not write": {
  "tightened": [
   "C124_link_writes"
  ]
 },
 "integers print unsigned": {
  "breaks": [],
  "remark": "Not a valid edit (the definition does not compile); repeated as 'integers print without their sign', which loses C122."
 },
 "every second file is read": {
  "breaks": [],
  "remark": "Not a valid edit (the definition is rejected for its termination); 'only the first file is read' is the same kind of mistake and loses C125."
 },
 "the longer of the two vectors decides": {
  "breaks": [],
  "remark": "For buffers written by the code both vectors have the same length; the proofs notice it all the same."
 },
 "one level less of nesting": {
  "breaks": [],
  "remark": "Changes the bytes or a bound that no claim mentions; the proofs notice it all the same."
 },
 "padding in front of the wrong place": {
  "remark": "Concerned no claim at first; with misaligned reads undefined it breaks the round trip. This is the result of the second run."
 },
 "strings are not terminated": {
  "breaks": [],
  "remark": "Changes the bytes or a bound that no claim mentions; the proofs notice it all the same."
 },
 "the size of the table is not recorded": {
  "breaks": [],
  "remark": "Changes the bytes or a bound that no claim mentions; the proofs notice it all the same."
 },
 "vtables are not shared": {
  "breaks": [],
  "remark": "Changes the bytes or a bound that no claim mentions; the proofs notice it all the same."
 },
 "the end is not aligned": {
  "remark": "Survived at first, since only accesses outside the buffer were undefined; misaligned reads were then made undefined in the model (C129_misaligned added). This is the result of the second run.",
  "tightened": [
   "C129_round_trip",
   "C129_link"
  ]
 },
 "a response nobody waits for throws": {
  "breaks": [
   "C46"
  ],
  "remark": "C130 speaks of requests that are open; a response to no request is the concern of C46."
 },
 "damaged bytes are an exception (first attempt)": {
  "breaks": [],
  "remark": "Not a valid edit (the definition does not compile); repeated as 'damaged bytes are an exception', which loses C129."
 },
 "Start does not set the flag (first attempt)": {
  "breaks": [],
  "remark": "Not a valid edit (the definition does not compile); repeated as 'Start does not set the flag'."
 },
 "construction runs the bus (first attempt)": {
  "breaks": [],
  "remark": "Not a valid edit (the definition does not compile); repeated as 'construction runs the bus'."
 },
 "the bus of an instance has the name of the template (first attempt)": {
  "breaks": [],
  "remark": "Not a valid edit (the definition does not compile); repeated as 'the bus of an instance has the name of the template'."
 },
 "links send to themselves (first attempt)": {
  "remark": "Not a valid edit: the result does not compile. Repeated in a valid form.",
  "breaks": []
 },
 "messages fill whole pages (first attempt)": {
  "breaks": [],
  "remark": "The edit made an unrelated proof run out of time, so nothing can be said. Repeated with a smaller factor."
 },
 "messages fill whole pages (second attempt)": {
  "breaks": [],
  "remark": "The lemma message_read (Lemma/FlatRound), from which the theorems of C129 are derived, contains the bound on the size and does not hold any more. Its proof runs out of time before it fails, so the tool could not go on and does not count the edit."
 },
 "64 bytes behind every message": {
  "breaks": [],
  "remark": "The lemma message_read (Lemma/FlatRound), from which the theorems of C129 are derived, contains the bound on the size and does not hold any more. Its proof runs out of time before it fails, so the tool could not go on and does not count the edit."
 },
 "the wrong child mutex is held": {
  "breaks": [
   "C38"
  ],
  "remark": "First labelled C73; the mutex is the concern of C38."
 },
 "clients may use private publishers": {
  "breaks": [],
  "remark": "The edit only permits more to the clients; C46 stays true and proved."
 },
 "a null element is the list itself": {
  "breaks": [],
  "remark": "Elements of a list are never null in a datagram that the API can make, so the edit changes nothing that can be observed."
 },
 "the destructor does not stop the children (second attempt)": {
  "tightened": [
   "C32_destructor_covers_hierarchy"
  ],
  "remark": "Survived the first attempt; C32_destructor_covers_hierarchy was added. This is the result of the second attempt."
 },
 "ten instances at most (second attempt)": {
  "tightened": [
   "C57_next_instance",
   "C57_last_instance"
  ],
  "remark": "Survived the first attempt: C57 did not say how many instances there can be. This is the result of the second attempt."
 },
 "exceptions leave the template's destructor": {
  "breaks": [
   "C59"
  ],
  "remark": "C105 stays true: the templates are unloaded before the manager is destroyed, and any exception leaving its destructor ends the process either way; C59 notices the change."
 },
 "links send to servers only": {
  "breaks": [
   "C54"
  ],
  "tightened": [
   "C54_sent_under_concurrency"
  ],
  "remark": "Survived at first: C82 is about proper use of the sockets only, and C54 was stated for the sequential callback. C54 now holds under concurrency too; this is the result of the second run."
 },
 "sending without the mutex of the socket": {
  "breaks": [
   "C83"
  ],
  "remark": "C82 stays true: the owner closes sockets only after it has removed the subscriber, which waits for the whole subscriber loop, so sends need no mutex of their own to be safe; C83 notices the change."
 },
 "unloading never throws": {
  "breaks": [
   "C76"
  ],
  "tightened": [
   "C76_start_after_failed_teardown"
  ],
  "remark": "Survived at first: the theorems about exceptions hold all the more when fewer are possible. C76 now shows what follows a failed teardown; this is the result of the second run."
 },
 "the import asks for a document instead of success": {
  "remark": "The same function (reading the word null does nothing); the proof script failed, not the statement."
 }
}